import Verif.Proofs.StatevecAbs

/-!
# Property C41: the state-vector kernels compute the operators

`absState l psi` (`Spec/Register.lean`) is the state of the nodes of the register `l` (node `l[q]` at
qubit `q`, qubit 0 being the most significant bit) whose amplitudes are in the buffer `psi`.
-/

namespace Graphix

open Function

/-- The qubits fit in the buffer. -/
def Statevector.Wf (sv : Statevector) : Prop := sv.nqubit ≤ sv.maxQubits

/-- A schedule of the iterations of the single-qubit kernels: sequential, or any order. -/
def OkOrder (order : Option (List (ℕ × ℕ))) (nqubit q : ℕ) : Prop :=
  ∀ o, order = some o → o.Perm (blockPairs nqubit q)

theorem Statevector.evolve_cases (order : Option (List (ℕ × ℕ))) (sv : Statevector) (op : Mat2) {q : ℕ}
    (hq : q < sv.nqubit) (ho : OkOrder order sv.nqubit q) :
    ∃ o, o.Perm (blockPairs sv.nqubit q) ∧
      sv.evolveSingle order op q = .ok { sv with psi := evolveSinglePar o sv.psi op sv.nqubit q } := by
  unfold Statevector.evolveSingle Statevector.checkBounds
  rw [if_pos hq]
  cases order with
  | none =>
    refine ⟨_, List.Perm.refl _, ?_⟩
    simp only [bind, Except.bind, pure, Except.pure, evolveSingleSeq_eq]
  | some o => exact ⟨o, ho o rfl, rfl⟩

/-- **C41** `evolve_single(op, q)` applies `op` to the node at qubit `q`, whatever the order of the
iterations; a unitary preserves the norm; memory outside the state is untouched. -/
theorem C41_evolve_single (order : Option (List (ℕ × ℕ))) (sv : Statevector) (op : Mat2) (l : List ℕ)
    (hl : l.Nodup) (hlen : l.length = sv.nqubit) (q n : ℕ) (hq : l[q]? = some n)
    (ho : OkOrder order sv.nqubit q) :
    ∃ sv', sv.evolveSingle order op q = .ok sv' ∧ sv'.nqubit = sv.nqubit ∧ sv'.maxQubits = sv.maxQubits ∧
      absState l sv'.psi = op1 op n (absState l sv.psi) ∧
      (op.conjTranspose * op = 1 → normSq sv.nqubit sv'.psi = normSq sv.nqubit sv.psi) ∧
      ∀ i, 2 ^ sv.nqubit ≤ i → sv'.psi i = sv.psi i := by
  have hlt : q < sv.nqubit := by
    rw [← hlen]; exact (List.getElem?_eq_some_iff.1 hq).1
  obtain ⟨o, hp, he⟩ := sv.evolve_cases order op hlt ho
  refine ⟨_, he, rfl, rfl, ?_, fun hU => normSq_evolve hU hlt hp _, (evolve_values hlt hp _).2⟩
  obtain ⟨l1, l2, rfl, rfl⟩ := split_of_getElem? hq
  simp only [← hlen] at hp ⊢
  exact abs_evolve hl op hp sv.psi

/-- **C41** `entangle((q1, q2))` is the controlled Z of the two nodes. -/
theorem C41_entangle (order : List ℕ) (sv : Statevector) (l : List ℕ) (hlen : l.length = sv.nqubit)
    (q1 q2 u v : ℕ) (h1 : l[q1]? = some u) (h2 : l[q2]? = some v)
    (ho : order.Perm (List.range (2 ^ sv.nqubit))) :
    ∃ sv', sv.entangle order q1 q2 = .ok sv' ∧ sv'.nqubit = sv.nqubit ∧ sv'.maxQubits = sv.maxQubits ∧
      absState l sv'.psi = cz u v (absState l sv.psi) ∧
      normSq sv.nqubit sv'.psi = normSq sv.nqubit sv.psi ∧
      ∀ i, 2 ^ sv.nqubit ≤ i → sv'.psi i = sv.psi i := by
  have hl1 : q1 < sv.nqubit := by rw [← hlen]; exact (List.getElem?_eq_some_iff.1 h1).1
  have hl2 : q2 < sv.nqubit := by rw [← hlen]; exact (List.getElem?_eq_some_iff.1 h2).1
  refine ⟨{ sv with psi := entangleJit order sv.psi sv.nqubit q1 q2 }, ?_, rfl, rfl, ?_,
    normSq_entangle ho _ _ _, ?_⟩
  · unfold Statevector.entangle Statevector.checkBounds
    rw [if_pos hl1, if_pos hl2]; rfl
  · simp only [← hlen] at ho ⊢
    exact abs_entangle h1 h2 ho sv.psi
  · intro i hi
    simp only []
    rw [entangleJit_eq ho, if_neg (fun h => absurd h.1 (not_lt.2 hi))]

theorem Statevector.ensureCapacity_spec (junk : Buf) (sv : Statevector) (h : sv.Wf) (r : ℕ) :
    (sv.ensureCapacity junk r).nqubit = sv.nqubit ∧ r ≤ (sv.ensureCapacity junk r).maxQubits ∧
      sv.maxQubits ≤ (sv.ensureCapacity junk r).maxQubits ∧
      ∀ i < 2 ^ sv.nqubit, (sv.ensureCapacity junk r).psi i = sv.psi i := by
  unfold Statevector.ensureCapacity
  by_cases hc : sv.maxQubits < r
  · rw [if_pos hc]
    refine ⟨rfl, le_refl _, hc.le, fun i hi => ?_⟩
    simp only []
    rw [if_pos (lt_of_lt_of_le hi (Nat.pow_le_pow_right (by norm_num) h))]
  · rw [if_neg hc]
    exact ⟨rfl, not_lt.1 hc, le_refl _, fun _ _ => rfl⟩

/-- **C41** `tensor(other)` appends the register of `other`: amplitudes multiply. -/
theorem C41_tensor (junk : Buf) (sv other : Statevector) (h : sv.Wf) (l l' : List ℕ)
    (hlen : l.length = sv.nqubit) (hlen' : l'.length = other.nqubit) :
    (sv.tensor junk other).nqubit = sv.nqubit + other.nqubit ∧ (sv.tensor junk other).Wf ∧
    absState (l ++ l') (sv.tensor junk other).psi = (fun b => absState l sv.psi b * absState l' other.psi b) ∧
    normSq (sv.nqubit + other.nqubit) (sv.tensor junk other).psi =
      normSq sv.nqubit sv.psi * normSq other.nqubit other.psi := by
  obtain ⟨e1, e2, -, e4⟩ := sv.ensureCapacity_spec junk h (sv.nqubit + other.nqubit)
  unfold Statevector.tensor
  simp only []
  refine ⟨by rw [e1], by simpa [Statevector.Wf, e1] using e2, ?_, ?_⟩
  · have := abs_tensor l l' (sv.ensureCapacity junk (sv.nqubit + other.nqubit)).psi other.psi
    rw [hlen, hlen'] at this
    rw [e1, this, absState_congr (psi' := sv.psi) (by rw [hlen]; exact e4)]
  · rw [e1, normSq_tensor, normSq_congr e4]

/-- **C41** Adding a node in state `v` (as a general state or as the default `|+⟩`). -/
theorem C41_add_node (junk : Buf) (isPlus : Bool) (sv : Statevector) (h : sv.Wf) (s : PlanarState)
    (hp : isPlus = true → s = PlanarState.plus) (l : List ℕ) (hlen : l.length = sv.nqubit) (n : ℕ) :
    (sv.addNode junk isPlus s.vec).nqubit = sv.nqubit + 1 ∧ (sv.addNode junk isPlus s.vec).Wf ∧
    absState (l ++ [n]) (sv.addNode junk isPlus s.vec).psi = prep n s.vec (absState l sv.psi) ∧
    normSq (sv.nqubit + 1) (sv.addNode junk isPlus s.vec).psi = normSq sv.nqubit sv.psi := by
  unfold Statevector.addNode
  cases isPlus with
  | true =>
    obtain ⟨e1, e2, -, e4⟩ := sv.ensureCapacity_spec junk h (sv.nqubit + 1)
    simp only [if_true]
    refine ⟨by rw [e1], by simpa [Statevector.Wf, e1] using e2, ?_, ?_⟩
    · rw [e1, hp rfl, ← hlen, abs_addDefault, absState_congr (psi' := sv.psi)]
      rw [hlen]; exact e4
    · rw [e1, normSq_addDefault, normSq_congr e4]
  | false =>
    simp only [Bool.false_eq_true, if_false]
    obtain ⟨h1, h2, h3, h4⟩ := C41_tensor junk sv (Statevector.single s.vec) h l [n] hlen rfl
    refine ⟨h1, h2, ?_, ?_⟩
    · rw [h3]; funext b; rw [single_psi]; unfold prep; ring
    · have : (Statevector.single s.vec).nqubit = 1 := rfl
      rw [this] at h4
      rw [h4, normSq_single]
      have hu := planarState_unit s.plane s.angle
      have : Complex.normSq (s.vec false) + Complex.normSq (s.vec true) = 1 := by
        unfold UnitVec at hu
        apply Complex.ofReal_injective
        push_cast
        simp only [Complex.normSq_eq_conj_mul_self]
        exact hu
      rw [this, mul_one]

/-- **C41** `expectation_single` of a rank-one projector is the probability that a measurement finds
it: the squared norm of the projected state. In particular it is real. -/
theorem C41_expectation (order : List (ℕ × ℕ)) (sv : Statevector) (v : Bool → ℂ) (q : ℕ) (hq : q < sv.nqubit)
    (ho : order.Perm (blockPairs sv.nqubit q)) :
    sv.expectationSingle order (outer v) q = .ok ((projProb sv.psi v sv.nqubit q : ℝ) : ℂ) := by
  unfold Statevector.expectationSingle Statevector.checkBounds
  rw [if_pos hq]
  simp only [bind, Except.bind, pure, Except.pure]
  rw [expectation_outer v hq ho]

/-- **C41** `project_qubit` with the projector on a unit vector `v`: either the probability of `v` is at
most `2e-10` and a `RuntimeError` is raised, or the node is projected on `v`, removed from the
register, and the state is normalised. -/
theorem C41_project (order : List (ℕ × ℕ)) (sv : Statevector) (v : Bool → ℂ) (hv : UnitVec v)
    (l1 l2 : List ℕ) (n : ℕ) (hl : (l1 ++ n :: l2).Nodup) (hlen : (l1 ++ n :: l2).length = sv.nqubit)
    (ho : order.Perm (blockPairs sv.nqubit l1.length)) :
    (sv.projectQubit order (outer v) l1.length = .error .runtimeError ∧
      projProb sv.psi v sv.nqubit l1.length ≤ 2 * (1 / 10 ^ 10)) ∨
    ∃ sv' : Statevector, ∃ c : ℂ, sv.projectQubit order (outer v) l1.length = .ok sv' ∧ c ≠ 0 ∧
      sv'.nqubit = sv.nqubit - 1 ∧ sv'.maxQubits = sv.maxQubits ∧
      absState (l1 ++ l2) sv'.psi = c • projOut n v (absState (l1 ++ n :: l2) sv.psi) ∧
      normSq sv'.nqubit sv'.psi = 1 := by
  have hq : l1.length < sv.nqubit := by rw [← hlen]; simp
  have key : ∀ x, sv.projectQubit order (outer v) l1.length = x ↔
      (match projectQubitJit order sv.psi (outer v) sv.nqubit l1.length (1 / 10 ^ 10) with
      | .error e => .error e
      | .ok r => .ok { sv with psi := r.1, nqubit := r.2 }) = x := by
    intro x
    unfold Statevector.projectQubit Statevector.checkBounds
    rw [if_pos hq]
    simp only [bind, Except.bind, pure, Except.pure]
    cases projectQubitJit order sv.psi (outer v) sv.nqubit l1.length (1 / 10 ^ 10) <;> rfl
  rcases projectQubit_spec hv hq ho sv.psi (atol := 1 / 10 ^ 10) (by norm_num) with ⟨h1, h2⟩ | ⟨psi', c, h1, h2, h3, h4, h5⟩
  · left
    exact ⟨by rw [key, h1], h2⟩
  · right
    refine ⟨{ sv with psi := psi', nqubit := sv.nqubit - 1 }, c, by rw [key, h1], ?_, rfl, rfl, ?_, ?_⟩
    · rintro rfl; simp at h2
    · have hlen' : (l1 ++ l2).length = sv.nqubit - 1 := by rw [← hlen]; simp
      rw [absState_congr (psi' := fun m => c * projAmp sv.psi v sv.nqubit l1.length m)
        (by rw [hlen']; exact h4), absState_smul, ← hlen, abs_proj hl]
    · simp only []
      rw [normSq_congr h4, ← h2]
      unfold projProb normSq
      rw [Finset.mul_sum]
      exact Finset.sum_congr rfl (fun i _ => by rw [Complex.normSq_mul])

/-- Exchange the values of two nodes. -/
def swapNodes (u v : ℕ) (ψ : QState) : QState := fun b => ψ (fun n => b (Equiv.swap u v n))

theorem testBit_enc_ge (l : List ℕ) (b : Basis) {i : ℕ} (h : l.length ≤ i) : (enc l b).testBit i = false :=
  Nat.testBit_lt_two_pow (lt_of_lt_of_le (enc_lt l b) (Nat.pow_le_pow_right (by norm_num) h))

theorem decide_and_two_pow (m k : ℕ) : decide (m &&& 2 ^ k ≠ 0) = m.testBit k := by
  rw [Nat.and_two_pow]
  cases m.testBit k <;> simp

theorem enc_swap {l : List ℕ} (hl : l.Nodup) {q1 q2 u v : ℕ} (h1 : l[q1]? = some u) (h2 : l[q2]? = some v)
    (b : Basis) (hne : b u ≠ b v) :
    enc l b ^^^ (2 ^ (l.length - 1 - q1) ||| 2 ^ (l.length - 1 - q2)) =
      enc l (fun n => b (Equiv.swap u v n)) := by
  have hl1 := (List.getElem?_eq_some_iff.1 h1).1
  have hl2 := (List.getElem?_eq_some_iff.1 h2).1
  have huv : u ≠ v := by rintro rfl; exact hne rfl
  apply Nat.eq_of_testBit_eq
  intro i
  rw [Nat.testBit_xor, Nat.testBit_or, Nat.testBit_two_pow, Nat.testBit_two_pow]
  by_cases hi : i < l.length
  · have hget : l[l.length - 1 - i]? = some l[l.length - 1 - i] := List.getElem?_eq_getElem (by omega)
    have hb := testBit_enc' hget b
    have hb' := testBit_enc' hget (fun n => b (Equiv.swap u v n))
    rw [show l.length - 1 - (l.length - 1 - i) = i by omega] at hb hb'
    rw [hb, hb']
    have inj : ∀ {x y w : ℕ}, l[x]? = some w → l[y]? = some w → x = y := by
      intro x y w hx hy
      obtain ⟨hlt, _⟩ := List.getElem?_eq_some_iff.1 hx
      exact (List.getElem?_inj hlt hl).1 (hx.trans hy.symm)
    generalize l[l.length - 1 - i] = w at *
    by_cases hwu : w = u
    · subst hwu
      have := inj hget h1
      rw [Equiv.swap_apply_left]
      simp only [show l.length - 1 - q1 = i by omega, decide_true, Bool.true_or, Bool.bne_true]
      revert hne; cases b w <;> cases b v <;> simp
    · by_cases hwv : w = v
      · subst hwv
        have := inj hget h2
        rw [Equiv.swap_apply_right]
        simp only [show l.length - 1 - q2 = i by omega, decide_true, Bool.or_true, Bool.bne_true]
        revert hne; cases b u <;> cases b w <;> simp
      · rw [Equiv.swap_apply_of_ne_of_ne hwu hwv]
        have e1 : l.length - 1 - q1 ≠ i := by
          intro he; apply hwu
          have : l.length - 1 - i = q1 := by omega
          rw [this, h1] at hget; exact (Option.some.inj hget).symm
        have e2 : l.length - 1 - q2 ≠ i := by
          intro he; apply hwv
          have : l.length - 1 - i = q2 := by omega
          rw [this, h2] at hget; exact (Option.some.inj hget).symm
        simp [e1, e2]
  · rw [testBit_enc_ge l b (by omega), testBit_enc_ge l _ (by omega)]
    simp only [show l.length - 1 - q1 ≠ i by omega, show l.length - 1 - q2 ≠ i by omega, decide_false,
      Bool.or_false, Bool.bne_false]

/-- **C41** `swap((q1, q2))` exchanges the two nodes. -/
theorem C41_swap (sv : Statevector) (l : List ℕ) (hl : l.Nodup) (hlen : l.length = sv.nqubit)
    (q1 q2 u v : ℕ) (h1 : l[q1]? = some u) (h2 : l[q2]? = some v) :
    (sv.swap q1 q2).nqubit = sv.nqubit ∧
      absState l (sv.swap q1 q2).psi = swapNodes u v (absState l sv.psi) := by
  refine ⟨rfl, ?_⟩
  have hl1 := (List.getElem?_eq_some_iff.1 h1).1
  have hl2 := (List.getElem?_eq_some_iff.1 h2).1
  funext b
  unfold Statevector.swap swapJit swapNodes absState
  simp only [← hlen]
  by_cases hq : q1 = q2
  · subst hq
    rw [h1] at h2
    obtain rfl := Option.some.inj h2
    rw [if_pos rfl]; simp
  · rw [if_neg hq]
    set a := l.length - 1 - q1 with ha
    set c := l.length - 1 - q2 with hc
    have hac : a ≠ c := by omega
    have hM : 2 ^ a ||| 2 ^ c ≠ 0 := by
      intro h
      have := congrArg (fun x => Nat.testBit x a) h
      simp [Nat.testBit_or, Nat.testBit_two_pow_self] at this
    have hfold := foldl_swap (2 ^ a) (2 ^ c) hM (by
      intro i hi
      simp only [decide_and_two_pow, Nat.testBit_xor, Nat.testBit_or, Nat.testBit_two_pow] at hi ⊢
      simp only [decide_true, Bool.true_or, Bool.or_true, Bool.bne_true, hac, hac.symm]
      revert hi; cases i.testBit a <;> cases i.testBit c <;> simp) (List.range (2 ^ l.length)) sv.psi
      List.nodup_range (enc l b)
    rw [hfold]
    simp only [decide_and_two_pow, testBit_enc' h1 b, testBit_enc' h2 b, ha, hc]
    by_cases hb : b u = b v
    · rw [if_neg (fun h => h.1 hb)]
      congr 2
      funext n
      by_cases hu : n = u
      · subst hu; rw [Equiv.swap_apply_left, hb]
      · by_cases hv : n = v
        · subst hv; rw [Equiv.swap_apply_right, hb]
        · rw [Equiv.swap_apply_of_ne_of_ne hu hv]
    · rw [if_pos ⟨hb, List.mem_range.2 (lt_of_le_of_lt (min_le_left _ _) (enc_lt l b))⟩,
        enc_swap hl h1 h2 b hb]

/-- **C41** `permute` with the indices of the nodes `outs` in the register `l` re-orders the register
as `outs`; it is accepted exactly when it is a permutation. -/
theorem C41_permute (sv : Statevector) (l outs : List ℕ) (hl : l.Nodup) (hlen : l.length = sv.nqubit)
    (hp : outs.Perm l) :
    ∃ sv', sv.permute (outs.map (fun n => l.idxOf n)) = .ok sv' ∧ sv'.nqubit = sv.nqubit ∧
      absState outs sv'.psi = absState l sv.psi := by
  have hset : (outs.map (fun n => l.idxOf n)).toFinset = Finset.range sv.nqubit := by
    ext i
    rw [List.mem_toFinset, List.mem_map, Finset.mem_range, ← hlen]
    constructor
    · rintro ⟨n, hn, rfl⟩
      exact List.idxOf_lt_length_iff.2 (hp.mem_iff.1 hn)
    · intro hi
      exact ⟨l[i], hp.mem_iff.2 (List.getElem_mem hi), hl.idxOf_getElem i hi⟩
  have hc : Statevector.checkPermutation (outs.map (fun n => l.idxOf n)) sv.nqubit = .ok () := by
    unfold Statevector.checkPermutation
    rw [if_neg (by rw [not_not, List.length_map, hp.length_eq, hlen]), if_neg (by rw [not_not, hset])]
  refine ⟨⟨fun i => if i < 2 ^ sv.nqubit then
        sv.psi (permuteIndex sv.nqubit (outs.map (fun n => l.idxOf n)) 0 i) else sv.psi i, sv.nqubit,
        sv.maxQubits⟩,
    by unfold Statevector.permute; rw [hc]; rfl, rfl, ?_⟩
  simp only []
  rw [← hlen]
  exact abs_permute hl hp sv.psi

/-- **C41** Out-of-range qubits are rejected. -/
theorem C41_bounds (sv : Statevector) (q : ℕ) (hq : sv.nqubit ≤ q) (op : Mat2) (q' : ℕ) :
    (∀ order, sv.evolveSingle order op q = .error .indexError) ∧
    (∀ order, sv.expectationSingle order op q = .error .indexError) ∧
    (∀ order, sv.projectQubit order op q = .error .indexError) ∧
    (∀ order, sv.entangle order q q' = .error .indexError) := by
  have h : sv.checkBounds q = .error .indexError := by
    unfold Statevector.checkBounds; rw [if_neg (not_lt.2 hq)]
  refine ⟨fun _ => ?_, fun _ => ?_, fun _ => ?_, fun _ => ?_⟩ <;>
    simp [Statevector.evolveSingle, Statevector.expectationSingle, Statevector.projectQubit,
      Statevector.entangle, h, bind, Except.bind]

/-- A three-qubit register: `blockPairs` in reverse is an allowed schedule, node 5 is at qubit 1. -/
example : ([4, 5, 9] : List ℕ).Nodup ∧ ([4, 5, 9] : List ℕ)[1]? = some 5 ∧
    OkOrder (some (blockPairs 3 1).reverse) 3 1 ∧ ([9, 4, 5] : List ℕ).Perm [4, 5, 9] := by
  refine ⟨by decide, rfl, ?_, by decide⟩
  rintro o h
  obtain rfl := Option.some.inj h
  exact List.reverse_perm _

end Graphix
