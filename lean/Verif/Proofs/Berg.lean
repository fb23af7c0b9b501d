import Verif.Proofs.Pauli

/-!
# Correctness of `cm_berg_pass`
-/

namespace Graphix

open Function

namespace Berg

/-- The row is a unit vector, up to the sign. -/
def UnitRow (n : ℕ) (t : ℕ → ZMod 2) (j : ℕ) : Prop := ∀ c < 2 * n, t c = if c = j then 1 else 0

/-- The tableau is obtained from `tab0` by conjugation, and the instructions undo this conjugation. -/
structure Good (n : ℕ) (tab0 : GF2) (s : St) : Prop where
  ex : ∃ G : QState → QState, Homog G ∧ (∀ r ψ, G (rowOp n (tab0 r) ψ) = rowOp n (s.tab r) (G ψ)) ∧
    (∀ ψ, gates s.instrs.reverse (G ψ) = ψ) ∧ ∀ ψ, G (gates s.instrs.reverse ψ) = ψ
  ok : ∀ i ∈ s.instrs, i.isGate ∧ Circuit.instrOk (Finset.range n) i = true

theorem gates_append (l l' : List Instr) (ψ : QState) : gates (l ++ l') ψ = gates l' (gates l ψ) := by
  simp [gates, List.foldl_append]

theorem Good.init (n : ℕ) (tab : GF2) : Good n tab ⟨tab, []⟩ :=
  ⟨⟨id, fun _ _ => rfl, fun _ _ => rfl, fun _ => rfl, fun _ => rfl⟩, by simp⟩

theorem Good.step {n : ℕ} {tab0 : GF2} {s s' : St} (h : Good n tab0 s) {G : QState → QState} {l : List Instr} (hi : s'.instrs = s.instrs ++ l)
    (hG : Homog G) (hr : ∀ r ψ, G (rowOp n (s.tab r) ψ) = rowOp n (s'.tab r) (G ψ)) (hl : ∀ ψ, gates l.reverse (G ψ) = ψ)
    (hl' : ∀ ψ, G (gates l.reverse ψ) = ψ) (hok : ∀ i ∈ l, i.isGate ∧ Circuit.instrOk (Finset.range n) i = true) : Good n tab0 s' := by
  obtain ⟨⟨F, h1, h2, h3, h4⟩, h5⟩ := h
  refine ⟨⟨G ∘ F, ?_, ?_, ?_, ?_⟩, ?_⟩
  · intro c ψ
    rw [comp_apply, h1, hG, comp_apply]
  · intro r ψ
    rw [comp_apply, h2, hr, comp_apply]
  · intro ψ
    rw [hi, List.reverse_append, gates_append, comp_apply, hl, h3]
  · intro ψ
    rw [hi, List.reverse_append, gates_append, comp_apply, h4, hl']
  · intro i hi'
    rw [hi, List.mem_append] at hi'
    exact hi'.elim (h5 i) (hok i)

theorem H_mul_H : Ops.H * Ops.H = 1 := by
  have := H_unitary
  rwa [show Ops.H.conjTranspose = Ops.H by
    unfold Ops.H; rw [mat2_smul, mat2_conjTranspose]; simp] at this

theorem Good.addH {n : ℕ} {tab0 : GF2} {s : St} (h : Good n tab0 s) {q : ℕ} (hq : q < n) : Good n tab0 (addH n s q) := by
  refine h.step (G := op1 Ops.H q) (l := [.H q]) rfl (fun c ψ => op1_smul _ _ _ _) (fun r ψ => rowOp_H hq s r ψ) ?_ ?_ ?_
  · intro ψ; show op1 Ops.H q (op1 Ops.H q ψ) = ψ; rw [op1_mul, H_mul_H, op1_one]
  · intro ψ; show op1 Ops.H q (op1 Ops.H q ψ) = ψ; rw [op1_mul, H_mul_H, op1_one]
  · simp [Instr.isGate, Circuit.instrOk, hq]

theorem Good.addS {n : ℕ} {tab0 : GF2} {s : St} (h : Good n tab0 s) {q : ℕ} (hq : q < n) : Good n tab0 (addS n s q) := by
  have e1 : Ops.S * (Ops.Z * Ops.S) = 1 := by
    simp [Ops.S, Ops.Z, mat2_mul, mat2_one]
  have e2 : Ops.S * (Ops.S * Ops.Z) = 1 := by
    simp [Ops.S, Ops.Z, mat2_mul, mat2_one]
  refine h.step (G := op1 Ops.S q) (l := [.S q, .Z q]) rfl (fun c ψ => op1_smul _ _ _ _) (fun r ψ => rowOp_S hq s r ψ) ?_ ?_ ?_
  · intro ψ; show op1 Ops.S q (op1 Ops.Z q (op1 Ops.S q ψ)) = ψ; rw [op1_mul, op1_mul, Matrix.mul_assoc, e1, op1_one]
  · intro ψ; show op1 Ops.S q (op1 Ops.S q (op1 Ops.Z q ψ)) = ψ; rw [op1_mul, op1_mul, Matrix.mul_assoc, e2, op1_one]
  · simp [Instr.isGate, Circuit.instrOk, hq]

theorem cnot_cnot {c t : ℕ} (h : c ≠ t) (ψ : QState) : cnotOp c t (cnotOp c t ψ) = ψ := by
  funext b
  simp [cnotOp, update_of_ne h]

theorem swap_swap (u v : ℕ) (ψ : QState) : swapOp u v (swapOp u v ψ) = ψ := by
  funext b
  simp only [swapOp]
  congr 1
  funext k
  simp

theorem Good.addCnot {n : ℕ} {tab0 : GF2} {s : St} (h : Good n tab0 s) {c t : ℕ} (hc : c < n) (ht : t < n) (hct : c ≠ t) :
    Good n tab0 (addCnot n s c t) :=
  h.step (G := cnotOp c t) (l := [.CNOT c t]) rfl (fun _ _ => rfl) (fun r ψ => rowOp_CNOT hc ht hct s r ψ) (cnot_cnot hct) (cnot_cnot hct)
    (by simp [Instr.isGate, Circuit.instrOk, hc, ht, hct])

theorem Good.addSwap {n : ℕ} {tab0 : GF2} {s : St} (h : Good n tab0 s) {u v : ℕ} (hu : u < n) (hv : v < n) (huv : u ≠ v) :
    Good n tab0 (addSwap n s u v) :=
  h.step (G := swapOp u v) (l := [.SWAP u v]) rfl (fun _ _ => rfl) (fun r ψ => rowOp_SWAP hu hv huv s r ψ) (swap_swap u v) (swap_swap u v)
    (by simp [Instr.isGate, Circuit.instrOk, hu, hv, huv])

theorem Good.symp {n : ℕ} {tab0 : GF2} {s : St} (h : Good n tab0 s) (r r' : ℕ) :
    symp n (s.tab r) (s.tab r') = symp n (tab0 r) (tab0 r') := by
  obtain ⟨⟨G, h1, h2, h3, h4⟩, -⟩ := h
  apply symp_of_comm
  intro ψ
  rw [← h4 ψ, ← h2, ← h2, rowOp_comm, h1, h2, h2]

/-! ### Unit rows -/

theorem sum_unit {n j : ℕ} (hj : j < n) (f : ℕ → ZMod 2) (h : ∀ q < n, q ≠ j → f q = 0) : ((List.range n).map f).sum = f j := by
  have h0 : ∀ m, (∀ q < m, f q = 0) → ((List.range m).map f).sum = 0 := by
    intro m hm
    apply List.sum_eq_zero
    intro x hx
    obtain ⟨q, hq, rfl⟩ := List.mem_map.1 hx
    exact hm q (List.mem_range.1 hq)
  induction n with
  | zero => omega
  | succ n ih =>
    rw [List.range_succ, List.map_append, List.sum_append]
    simp only [List.map_cons, List.map_nil, List.sum_cons, List.sum_nil, add_zero]
    by_cases e : j = n
    · subst e
      rw [h0 j fun q hq => h q (by omega) (by omega), zero_add]
    · rw [ih (by omega) fun q hq hqj => h q (by omega) hqj, h n (by omega) (Ne.symm e), add_zero]

theorem UnitRow.symp_x {n j : ℕ} {t t' : ℕ → ZMod 2} (h : UnitRow n t j) (hj : j < n) : symp n t t' = t' (j + n) := by
  unfold symp
  rw [sum_unit hj]
  · rw [h j (by omega), h (j + n) (by omega), if_pos rfl, if_neg (by omega)]; ring
  · intro q hq hqj
    rw [h q (by omega), h (q + n) (by omega), if_neg hqj, if_neg (by omega)]; ring

theorem UnitRow.symp_z {n j : ℕ} {t t' : ℕ → ZMod 2} (h : UnitRow n t (j + n)) (hj : j < n) : symp n t t' = t' j := by
  unfold symp
  rw [sum_unit hj]
  · rw [h j (by omega), h (j + n) (by omega), if_pos rfl, if_neg (by omega)]; ring
  · intro q hq hqj
    rw [h q (by omega), h (q + n) (by omega), if_neg (by omega), if_neg (by omega)]; ring

/-! ### Unchanged rows -/

theorem addH_same {n : ℕ} {s : St} {r k : ℕ} (h : s.tab r k = 0) (h' : s.tab r (k + n) = 0) : (addH n s k).tab r = s.tab r := by
  funext c
  simp only [addH, h, h']
  split
  · simp [*]
  · split
    · simp [*]
    · split <;> simp [*]

theorem addS_same {n : ℕ} {s : St} {r k : ℕ} (h : s.tab r k = 0) : (addS n s k).tab r = s.tab r := by
  funext c
  simp only [addS, h]
  split
  · simp [*]
  · split <;> simp [*]

theorem addCnot_same {n : ℕ} {s : St} {r a b : ℕ} (h : s.tab r a = 0) (h' : s.tab r (b + n) = 0) : (addCnot n s a b).tab r = s.tab r := by
  funext c
  simp only [addCnot, h, h']
  split
  · simp [*]
  · split
    · simp [*]
    · split <;> simp [*]

theorem addSwap_same {n : ℕ} {s : St} {r a b : ℕ} (h : s.tab r a = 0) (h' : s.tab r (a + n) = 0) (hb : s.tab r b = 0)
    (hb' : s.tab r (b + n) = 0) : (addSwap n s a b).tab r = s.tab r := by
  funext c
  simp only [addSwap, h, h', hb, hb']
  split
  · simp [*]
  · split
    · simp [*]
    · split
      · simp [*]
      · split <;> simp [*]

/-! ### The invariant -/

/-- The first `q` qubits have been processed. -/
structure Inv (n : ℕ) (tab0 : GF2) (q : ℕ) (s : St) : Prop where
  good : Good n tab0 s
  x : ∀ j < q, UnitRow n (s.tab j) j
  z : ∀ j < q, UnitRow n (s.tab (j + n)) (j + n)

theorem Inv.frame {n : ℕ} {tab0 : GF2} {q : ℕ} {s s' : St} (h : Inv n tab0 q s) (hg : Good n tab0 s')
    (hs : ∀ r, (∀ k, q ≤ k → k < n → s.tab r k = 0 ∧ s.tab r (k + n) = 0) → s'.tab r = s.tab r) : Inv n tab0 q s' := by
  refine ⟨hg, fun j hj => ?_, fun j hj => ?_⟩
  · rw [hs j]
    · exact h.x j hj
    · intro k hk hkn
      rw [h.x j hj k (by omega), h.x j hj (k + n) (by omega), if_neg (by omega), if_neg (by omega)]
      exact ⟨rfl, rfl⟩
  · rw [hs (j + n)]
    · exact h.z j hj
    · intro k hk hkn
      rw [h.z j hj k (by omega), h.z j hj (k + n) (by omega), if_neg (by omega), if_neg (by omega)]
      exact ⟨rfl, rfl⟩

theorem Inv.addH {n : ℕ} {tab0 : GF2} {q k : ℕ} {s : St} (h : Inv n tab0 q s) (hk : q ≤ k) (hkn : k < n) : Inv n tab0 q (addH n s k) :=
  h.frame (h.good.addH hkn) fun _ hr => addH_same (hr k hk hkn).1 (hr k hk hkn).2

theorem Inv.addS {n : ℕ} {tab0 : GF2} {q k : ℕ} {s : St} (h : Inv n tab0 q s) (hk : q ≤ k) (hkn : k < n) : Inv n tab0 q (addS n s k) :=
  h.frame (h.good.addS hkn) fun _ hr => addS_same (hr k hk hkn).1

theorem Inv.addCnot {n : ℕ} {tab0 : GF2} {q a b : ℕ} {s : St} (h : Inv n tab0 q s) (ha : q ≤ a) (han : a < n) (hb : q ≤ b) (hbn : b < n)
    (hab : a ≠ b) : Inv n tab0 q (addCnot n s a b) :=
  h.frame (h.good.addCnot han hbn hab) fun _ hr => addCnot_same (hr a ha han).1 (hr b hb hbn).2

theorem Inv.addSwap {n : ℕ} {tab0 : GF2} {q a b : ℕ} {s : St} (h : Inv n tab0 q s) (ha : q ≤ a) (han : a < n) (hb : q ≤ b) (hbn : b < n)
    (hab : a ≠ b) : Inv n tab0 q (addSwap n s a b) :=
  h.frame (h.good.addSwap han hbn hab) fun _ hr => addSwap_same (hr a ha han).1 (hr a ha han).2 (hr b hb hbn).1 (hr b hb hbn).2

/-! ### Step 1 -/

theorem step1Loop_spec {n : ℕ} {tab0 : GF2} {q row : ℕ} (l : List ℕ) : ∀ {s : St}, Inv n tab0 q s → l.Nodup →
    (∀ k ∈ l, q ≤ k ∧ k < n ∧ s.tab row (k + n) = 1) →
    Inv n tab0 q (step1Loop n row l s) ∧
      (∀ k < n, (step1Loop n row l s).tab row (k + n) = if k ∈ l then 0 else s.tab row (k + n)) ∧
      (∀ k < n, (step1Loop n row l s).tab row k = if k ∈ l then 1 else s.tab row k) ∧
      ∀ r, (∀ k ∈ l, s.tab r k = 0 ∧ (s.tab row k = 1 ∨ s.tab r (k + n) = 0)) → (step1Loop n row l s).tab r = s.tab r := by
  induction l with
  | nil => intro s h _ _; simp [step1Loop, h]
  | cons j l ih =>
    intro s h hl hk
    rw [List.nodup_cons] at hl
    obtain ⟨hj1, hj2, hj3⟩ := hk j (by simp)
    set s1 := if s.tab row j = 1 then Berg.addS n s j else Berg.addH n s j with hs1
    have hinv : Inv n tab0 q s1 := by
      rw [hs1]; split
      · exact h.addS hj1 hj2
      · exact h.addH hj1 hj2
    have hrow : ∀ k < n, k ≠ j → ∀ r, s1.tab r k = s.tab r k ∧ s1.tab r (k + n) = s.tab r (k + n) := by
      intro k hkn hkj r
      rw [hs1]; split
      · simp only [Berg.addS]
        rw [if_neg (by omega), if_neg (by omega), if_neg (by omega), if_neg (by omega)]
        exact ⟨rfl, rfl⟩
      · simp only [Berg.addH]
        rw [if_neg (by omega), if_neg (by omega), if_neg (by omega), if_neg (by omega), if_neg (by omega), if_neg (by omega)]
        exact ⟨rfl, rfl⟩
    have hrowj : s1.tab row j = 1 ∧ s1.tab row (j + n) = 0 := by
      rw [hs1]; split
      · rename_i hx
        simp only [Berg.addS]
        rw [if_neg (by omega), if_neg (by omega), if_neg (by omega), if_pos trivial, hx, hj3]
        exact ⟨rfl, by decide⟩
      · rename_i hx
        have hx : s.tab row j = 0 := (zc2 _).resolve_right hx
        simp only [Berg.addH]
        rw [if_neg (by omega), if_pos trivial, if_neg (by omega), if_neg (by omega), if_pos trivial, hx, hj3]
        exact ⟨rfl, rfl⟩
    have hne : ∀ k ∈ l, k ≠ j := by rintro k hkl rfl; exact hl.1 hkl
    obtain ⟨i1, i2, i3, i4⟩ := ih (s := s1) hinv hl.2 fun k hkl => by
      obtain ⟨a, b, c⟩ := hk k (by simp [hkl])
      exact ⟨a, b, by rw [(hrow k b (hne k hkl) row).2, c]⟩
    have hun : step1Loop n row (j :: l) s = step1Loop n row l s1 := rfl
    rw [hun]
    refine ⟨i1, ?_, ?_, ?_⟩
    · intro k hkn
      rw [i2 k hkn]
      by_cases e : k = j
      · subst e
        rw [if_neg hl.1, if_pos (by simp), hrowj.2]
      · rw [(hrow k hkn e row).2]
        simp [e]
    · intro k hkn
      rw [i3 k hkn]
      by_cases e : k = j
      · subst e
        rw [if_neg hl.1, if_pos (by simp), hrowj.1]
      · rw [(hrow k hkn e row).1]
        simp [e]
    · intro r hr
      have hr1 : s1.tab r = s.tab r := by
        obtain ⟨a, b⟩ := hr j (by simp)
        rw [hs1]; split
        · exact addS_same a
        · rename_i hx
          exact addH_same a (b.resolve_left hx)
      rw [i4 r, hr1]
      intro k hkl
      rw [hr1, (hrow k (hk k (by simp [hkl])).2.1 (hne k hkl) row).1]
      exact hr k (by simp [hkl])

theorem step1_spec {n : ℕ} {tab0 : GF2} {q row : ℕ} {s : St} (h : Inv n tab0 q s) (h0 : ∀ j < q, s.tab row (j + n) = 0) :
    Inv n tab0 q (step1 n row s) ∧
      (∀ k < n, (step1 n row s).tab row (k + n) = 0) ∧
      (∀ k < n, (step1 n row s).tab row k = if s.tab row (k + n) = 1 then 1 else s.tab row k) ∧
      ∀ r, (∀ k < n, s.tab row (k + n) = 1 → s.tab r k = 0 ∧ (s.tab row k = 1 ∨ s.tab r (k + n) = 0)) →
        (step1 n row s).tab r = s.tab r := by
  have hm : ∀ k, k ∈ (List.range n).filter (fun j => s.tab row (n + j) = 1) ↔ k < n ∧ s.tab row (k + n) = 1 := by
    intro k
    rw [List.mem_filter, List.mem_range, add_comm n k]
    simp
  obtain ⟨i1, i2, i3, i4⟩ := step1Loop_spec (row := row) ((List.range n).filter fun j => s.tab row (n + j) = 1) h
    (List.nodup_range.filter _) fun k hk => by
      obtain ⟨a, b⟩ := (hm k).1 hk
      refine ⟨?_, a, b⟩
      by_contra hlt
      rw [h0 k (by omega)] at b
      exact absurd b (by decide)
  refine ⟨i1, ?_, ?_, ?_⟩
  · intro k hk
    show (step1Loop n row _ s).tab row (k + n) = 0
    rw [i2 k hk]
    split
    · rfl
    · rename_i hx
      rw [hm] at hx
      rcases zc2 (s.tab row (k + n)) with e | e
      · exact e
      · exact absurd ⟨hk, e⟩ hx
  · intro k hk
    show (step1Loop n row _ s).tab row k = _
    rw [i3 k hk]
    simp only [hm, hk, true_and]
  · intro r hr
    exact i4 r fun k hk => hr k ((hm k).1 hk).1 ((hm k).1 hk).2

/-! ### Step 2 -/

theorem mem_of_everyOther (l : List ℕ) : ∀ k, k ∈ everyOther l → k ∈ l := by
  fun_induction everyOther l with
  | case1 a b l ih =>
    intro k hk
    simp only [List.mem_cons] at hk ⊢
    exact hk.imp id fun e => Or.inr (ih k e)
  | case2 => exact fun _ => id

theorem everyOther_nodup (l : List ℕ) (h : l.Nodup) : (everyOther l).Nodup := by
  fun_induction everyOther l with
  | case1 a b l ih =>
    simp only [List.nodup_cons, List.mem_cons, not_or] at h ⊢
    exact ⟨fun e => h.1.2 (mem_of_everyOther l a e), ih h.2.2⟩
  | case2 => exact h

theorem cnotRound_spec {n : ℕ} {tab0 : GF2} {q row : ℕ} (l : List ℕ) : ∀ {s : St}, Inv n tab0 q s → l.Nodup →
    (∀ k ∈ l, q ≤ k ∧ k < n ∧ s.tab row k = 1) → (∀ k < n, s.tab row (k + n) = 0) →
    Inv n tab0 q (cnotRound n l s) ∧
      (∀ k < n, (cnotRound n l s).tab row (k + n) = 0) ∧
      (∀ k < n, (cnotRound n l s).tab row k = if k ∈ l ∧ k ∉ everyOther l then 0 else s.tab row k) ∧
      ∀ r, (∀ k ∈ l, s.tab r k = 0) → (∀ k ∈ l.tail, s.tab r (k + n) = 0) → (cnotRound n l s).tab r = s.tab r := by
  fun_induction everyOther l with
  | case1 a b l ih =>
    intro s h hl hk hz
    obtain ⟨ha1, ha2, ha3⟩ := hk a (by simp)
    obtain ⟨hb1, hb2, hb3⟩ := hk b (by simp)
    have hab : a ≠ b := by rintro rfl; simp at hl
    have hbl : b ∉ l := by simp at hl; tauto
    have hal : a ∉ l := by simp at hl; tauto
    have hl' : l.Nodup := by simp at hl; tauto
    set s1 := Berg.addCnot n s a b with hs1
    have hinv : Inv n tab0 q s1 := h.addCnot ha1 ha2 hb1 hb2 hab
    have hx : ∀ k < n, k ≠ b → ∀ r, s1.tab r k = s.tab r k := by
      intro k hkn hkb r
      rw [hs1]
      simp only [Berg.addCnot]
      rw [if_neg (by omega), if_neg (by omega), if_neg (by omega)]
    have hzz : ∀ k < n, s1.tab row (k + n) = 0 := by
      intro k hkn
      rw [hs1]
      simp only [Berg.addCnot]
      rw [if_neg (by omega), if_neg (by omega)]
      split
      · rw [hz a ha2, hz b hb2]; rfl
      · exact hz k hkn
    have hxb : s1.tab row b = 0 := by
      rw [hs1]
      simp only [Berg.addCnot]
      rw [if_neg (by omega), if_pos trivial, ha3, hb3]
      decide
    obtain ⟨i1, i2, i3, i4⟩ := ih (s := s1) hinv hl' (fun k hkl => by
      obtain ⟨u, v, w⟩ := hk k (by simp [hkl])
      refine ⟨u, v, ?_⟩
      rw [hx k v (by rintro rfl; exact hbl hkl), w]) hzz
    have hun : cnotRound n (a :: b :: l) s = cnotRound n l s1 := rfl
    rw [hun]
    have hsub := mem_of_everyOther l
    refine ⟨i1, i2, ?_, ?_⟩
    · intro k hkn
      rw [i3 k hkn]
      by_cases e : k = b
      · subst e
        rw [if_neg (fun e => hbl e.1), hxb, if_pos ⟨by simp, fun e => (List.mem_cons.1 e).elim (fun e => hab e.symm) fun e => hbl (hsub _ e)⟩]
      · rw [hx k hkn e]
        by_cases e' : k = a
        · subst e'
          rw [if_neg fun e => hal e.1, if_neg (by simp)]
        · simp [e, e']
    · intro r hr hr'
      have : s1.tab r = s.tab r := addCnot_same (hr a (by simp)) (hr' b (by simp))
      rw [i4 r, this]
      · intro k hkl; rw [this]; exact hr k (by simp [hkl])
      · intro k hkl; rw [this]; exact hr' k (by simp [List.mem_of_mem_tail hkl])
  | case2 l hl2 =>
    intro s h hl hk hz
    have : cnotRound n l s = s := by
      match l, hl2 with
      | [], _ => rfl
      | [_], _ => rfl
      | a :: b :: l, h => exact (h a b l rfl).elim
    rw [this]
    refine ⟨h, hz, ?_, fun _ _ _ => rfl⟩
    intro k _
    rw [if_neg fun e => e.2 e.1]

theorem step2Loop_spec {n : ℕ} {tab0 : GF2} {q row : ℕ} (l : List ℕ) (s : St) : Inv n tab0 q s → l.Nodup → l ≠ [] →
    (∀ k ∈ l, q ≤ k ∧ k < n) → (∀ k < n, s.tab row (k + n) = 0) → (∀ k < n, s.tab row k = if k ∈ l then 1 else 0) →
    ∃ s', step2Loop n l s = ([l.headD 0], s') ∧ Inv n tab0 q s' ∧ UnitRow n (s'.tab row) (l.headD 0) ∧
      ∀ r, (∀ k ∈ l, s.tab r k = 0) → (∀ k ∈ l.tail, s.tab r (k + n) = 0) → s'.tab r = s.tab r := by
  fun_induction step2Loop n l s with
  | case1 l s hlen ih =>
    intro h hl hne hk hz hx
    have hsub := mem_of_everyOther l
    obtain ⟨i1, i2, i3, i4⟩ := cnotRound_spec l h hl (fun k hkl => ⟨(hk k hkl).1, (hk k hkl).2, by rw [hx k (hk k hkl).2, if_pos hkl]⟩) hz
    obtain ⟨a, b, m, rfl⟩ : ∃ a b m, l = a :: b :: m := by
      match l, hlen with
      | a :: b :: m, _ => exact ⟨a, b, m, rfl⟩
    have heo : everyOther (a :: b :: m) = a :: everyOther m := rfl
    obtain ⟨s', j1, j2, j3, j4⟩ := ih i1 (everyOther_nodup _ hl) (by rw [heo]; simp) (fun k hke => hk k (hsub k hke)) i2 (fun k hkn => by
      rw [i3 k hkn, hx k hkn]
      by_cases e1 : k ∈ everyOther (a :: b :: m)
      · simp [e1, hsub k e1]
      · by_cases e2 : k ∈ a :: b :: m
        · simp only [e1, e2, not_false_eq_true, and_self, if_true, if_false]
        · simp only [e1, e2, not_false_eq_true, if_false, false_and])
    rw [heo] at j1 j3 j4
    refine ⟨s', j1, j2, j3, fun r hr hr' => ?_⟩
    have hr1 := i4 r hr hr'
    rw [j4 r, hr1]
    · intro k hke; rw [hr1]; exact hr k (hsub k (by rw [heo]; exact hke))
    · intro k hke
      rw [hr1]
      exact hr' k (by
        have := mem_of_everyOther m k hke
        simp [this])
  | case2 l s hlen =>
    intro h hl hne hk hz hx
    obtain ⟨a, rfl⟩ : ∃ a, l = [a] := by
      match l, hlen, hne with
      | [a], _, _ => exact ⟨a, rfl⟩
      | a :: b :: m, h, _ => simp at h
    refine ⟨s, rfl, h, ?_, fun _ _ _ => rfl⟩
    intro c hc
    by_cases e : c < n
    · rw [hx c e]; simp
    · have := hz (c - n) (by omega)
      rw [show c - n + n = c by omega] at this
      rw [this, if_neg]
      have := (hk a (by simp)).2
      simp only [List.headD_cons]
      omega

theorem step2_spec {n : ℕ} {tab0 : GF2} {q row p : ℕ} {s : St} (h : Inv n tab0 q s) (hz : ∀ k < n, s.tab row (k + n) = 0)
    (h0 : ∀ j < q, s.tab row j = 0) (hp : p < n) (hp1 : s.tab row p = 1) :
    ∃ p' s', step2 n row s = .ok (p', s') ∧ Inv n tab0 q s' ∧ q ≤ p' ∧ p' ≤ p ∧ UnitRow n (s'.tab row) p' ∧
      ∀ r, (∀ k < n, s.tab row k = 1 → s.tab r k = 0) → (∀ k < n, k ≠ p' → s.tab row k = 1 → s.tab r (k + n) = 0) → s'.tab r = s.tab r := by
  have hm : ∀ k, k ∈ (List.range n).filter (fun j => s.tab row j = 1) ↔ k < n ∧ s.tab row k = 1 := by
    intro k
    rw [List.mem_filter, List.mem_range]
    simp
  have hs : ((List.range n).filter (fun j => s.tab row j = 1)).Pairwise (· < ·) := List.pairwise_lt_range.filter _
  have hd : ((List.range n).filter (fun j => s.tab row j = 1)).Nodup := List.nodup_range.filter _
  unfold step2
  generalize (List.range n).filter (fun j => s.tab row j = 1) = l at hm hs hd
  have hpl : p ∈ l := (hm p).2 ⟨hp, hp1⟩
  match l, hpl, hm, hs, hd with
  | a :: l, hpl, hm, hs, hd =>
    have hge : ∀ k ∈ a :: l, q ≤ k ∧ k < n := by
      intro k hk
      obtain ⟨u, v⟩ := (hm k).1 hk
      refine ⟨?_, u⟩
      by_contra hlt
      rw [h0 k (by omega)] at v
      exact absurd v (by decide)
    obtain ⟨s', j1, j2, j3, j4⟩ := step2Loop_spec (row := row) (a :: l) s h hd (by simp) hge hz (fun k hk => by
      simp only [hm, hk, true_and]
      rcases zc2 (s.tab row k) with e | e <;> simp [e])
    rw [j1]
    refine ⟨a, s', rfl, j2, (hge a (by simp)).1, ?_, j3, ?_⟩
    · rw [List.pairwise_cons] at hs
      rcases List.mem_cons.1 hpl with rfl | e
      · exact le_refl _
      · exact le_of_lt (hs.1 p e)
    · intro r hr hr'
      refine j4 r (fun k hk => hr k ((hm k).1 hk).1 ((hm k).1 hk).2) fun k hk => ?_
      rw [List.tail_cons] at hk
      have hk' := (hm k).1 (List.mem_cons_of_mem _ hk)
      refine hr' k hk'.1 ?_ hk'.2
      rintro rfl
      exact (List.nodup_cons.1 hd).1 hk

/-! ### A qubit -/

/-- The rows have the commutation relations of the generators. -/
def Sympl (n : ℕ) (tab : GF2) : Prop :=
  (∀ i < n, ∀ j < n, symp n (tab i) (tab j) = 0) ∧ (∀ i < n, ∀ j < n, symp n (tab (i + n)) (tab (j + n)) = 0) ∧
    ∀ i < n, ∀ j < n, symp n (tab i) (tab (j + n)) = if i = j then 1 else 0

theorem symp_comm (n : ℕ) (t t' : ℕ → ZMod 2) : symp n t t' = symp n t' t := by
  unfold symp
  congr 1
  refine List.map_congr_left fun q _ => ?_
  ring

theorem Inv.zero {n : ℕ} {tab0 : GF2} {q : ℕ} {s : St} (h : Inv n tab0 q s) (hs : Sympl n tab0) {r : ℕ} (hr : q ≤ r) (hrn : r < n) :
    ∀ j < q, s.tab r j = 0 ∧ s.tab r (j + n) = 0 ∧ s.tab (r + n) j = 0 ∧ s.tab (r + n) (j + n) = 0 := by
  intro j hj
  obtain ⟨s1, s2, s3⟩ := hs
  have hjn : j < n := by omega
  refine ⟨?_, ?_, ?_, ?_⟩
  · rw [← (h.z j hj).symp_z (t' := s.tab r) hjn, symp_comm, h.good.symp, s3 r hrn j hjn, if_neg (by omega)]
  · rw [← (h.x j hj).symp_x (t' := s.tab r) hjn, h.good.symp, s1 j hjn r hrn]
  · rw [← (h.z j hj).symp_z (t' := s.tab (r + n)) hjn, h.good.symp, s2 j hjn r hrn]
  · rw [← (h.x j hj).symp_x (t' := s.tab (r + n)) hjn, h.good.symp, s3 j hjn r hrn, if_neg (by omega)]

theorem UnitRow.addH_x {n q r : ℕ} {s : St} (hq : q < n) (h : UnitRow n (s.tab r) q) : UnitRow n ((Berg.addH n s q).tab r) (q + n) := by
  intro c hc
  simp only [Berg.addH]
  rw [if_neg (by omega), h q (by omega), h (q + n) (by omega), h c hc]
  split_ifs <;> first | rfl | omega

theorem UnitRow.addH_z {n q r : ℕ} {s : St} (hq : q < n) (h : UnitRow n (s.tab r) (q + n)) : UnitRow n ((Berg.addH n s q).tab r) q := by
  intro c hc
  simp only [Berg.addH]
  rw [if_neg (by omega), h q (by omega), h (q + n) (by omega), h c hc]
  split_ifs <;> first | rfl | omega

theorem UnitRow.addSwap {n q p r : ℕ} {s : St} (hq : q < n) (hp : p < n) (h : UnitRow n (s.tab r) p) :
    UnitRow n ((Berg.addSwap n s q p).tab r) q := by
  intro c hc
  simp only [Berg.addSwap]
  rw [h p (by omega), h q (by omega), h (p + n) (by omega), h (q + n) (by omega), h c hc]
  split_ifs <;> first | rfl | omega

theorem Inv.next {n : ℕ} {tab0 : GF2} {q : ℕ} {s : St} (h : Inv n tab0 q s) (hx : UnitRow n (s.tab q) q)
    (hz : UnitRow n (s.tab (q + n)) (q + n)) : Inv n tab0 (q + 1) s := by
  refine ⟨h.good, fun j hj => ?_, fun j hj => ?_⟩
  · by_cases e : j = q
    · subst e; exact hx
    · exact h.x j (by omega)
  · by_cases e : j = q
    · subst e; exact hz
    · exact h.z j (by omega)

theorem symp_zero {n : ℕ} {t t' : ℕ → ZMod 2} (h : ∀ c < 2 * n, t c = 0) : symp n t t' = 0 := by
  unfold symp
  apply List.sum_eq_zero
  intro x hx
  obtain ⟨q, hq, rfl⟩ := List.mem_map.1 hx
  have := List.mem_range.1 hq
  rw [h q (by omega), h (q + n) (by omega)]
  ring

/-- The list of the non-zero columns is `[j]` only for a unit row. -/
theorem unitRow_of_cols {n j : ℕ} {t : ℕ → ZMod 2}
    (h : ((List.range (2 * n)).filter fun c => t c = 1).length = 1 ∧ ((List.range (2 * n)).filter fun c => t c = 1).getD 0 0 = j) :
    UnitRow n t j := by
  have hm : ∀ k, k ∈ (List.range (2 * n)).filter (fun c => t c = 1) ↔ k < 2 * n ∧ t k = 1 := by
    intro k
    rw [List.mem_filter, List.mem_range]
    simp
  generalize (List.range (2 * n)).filter (fun c => t c = 1) = l at h hm
  match l, h with
  | [a], h =>
    obtain ⟨-, rfl⟩ := h
    intro c hc
    have := hm c
    simp only [hc, true_and, List.mem_singleton] at this
    simp only [List.getD_cons_zero]
    rcases zc2 (t c) with e | e
    · rw [if_neg, e]
      rw [this, e]
      decide
    · rw [if_pos (this.2 e), e]
  | _ :: _ :: _, h => simp at h

theorem processQubit_spec {n : ℕ} {tab0 : GF2} {q : ℕ} {s : St} (h : Inv n tab0 q s) (hs : Sympl n tab0) (hq : q < n) :
    ∃ s', processQubit n s q = .ok s' ∧ Inv n tab0 (q + 1) s' := by
  -- steps 1 to 3
  have hz0 := h.zero hs (le_refl q) hq
  obtain ⟨a1, a2, a3, -⟩ := step1_spec (row := q) h fun j hj => (hz0 j hj).2.1
  have a0 := a1.zero hs (le_refl q) hq
  have hex : ∃ p, p < n ∧ (step1 n q s).tab q p = 1 := by
    by_contra hno
    have hall : ∀ c < 2 * n, (step1 n q s).tab q c = 0 := by
      intro c hc
      by_cases e : c < n
      · exact (zc2 _).resolve_right fun e' => hno ⟨c, e, e'⟩
      · have := a2 (c - n) (by omega)
        rwa [show c - n + n = c by omega] at this
    have h1 := a1.good.symp q (q + n)
    rw [symp_zero hall, hs.2.2 q hq q hq, if_pos rfl] at h1
    exact absurd h1 (by decide)
  obtain ⟨p0, hp0, hp1⟩ := hex
  obtain ⟨p, s2, b0, b1, b2, b3, b4, -⟩ := step2_spec (row := q) a1 a2 (fun j hj => (a0 j hj).1) hp0 hp1
  obtain ⟨s3, c0, c1, c2⟩ : ∃ s3, (if p ≠ q then Berg.addSwap n s2 q p else s2) = s3 ∧ Inv n tab0 q s3 ∧ UnitRow n (s3.tab q) q := by
    by_cases e : p = q
    · subst e
      exact ⟨s2, by simp, b1, b4⟩
    · refine ⟨_, if_pos e, b1.addSwap (le_refl q) hq b2 (by omega) (Ne.symm e), b4.addSwap hq (by omega)⟩
  have hzz : s3.tab (q + n) (q + n) = 1 := by
    rw [← c2.symp_x (t' := s3.tab (q + n)) hq, c1.good.symp, hs.2.2 q hq q hq, if_pos rfl]
  unfold processQubit
  simp only [b0, bind, Except.bind, c0]
  by_cases hcol : ((List.range (2 * n)).filter fun j => s3.tab (q + n) j = 1).length = 1 ∧
    ((List.range (2 * n)).filter fun j => s3.tab (q + n) j = 1).getD 0 0 = q + n
  · rw [if_neg (not_not.2 hcol)]
    exact ⟨s3, rfl, c1.next c2 (unitRow_of_cols hcol)⟩
  · rw [if_pos hcol]
    -- step 4
    set s4 := Berg.addH n s3 q with hs4
    have d1 : Inv n tab0 q s4 := c1.addH (le_refl q) hq
    have d2 : UnitRow n (s4.tab q) (q + n) := c2.addH_x hq
    have d3 : s4.tab (q + n) q = 1 := by
      rw [← d2.symp_z (t' := s4.tab (q + n)) hq, d1.good.symp, hs.2.2 q hq q hq, if_pos rfl]
    have d0 := d1.zero hs (le_refl q) hq
    obtain ⟨e1, e2, e3, e4⟩ := step1_spec (row := q + n) d1 fun j hj => (d0 j hj).2.2.2
    have e5 : (step1 n (q + n) s4).tab q = s4.tab q := by
      apply e4
      intro k hk _
      refine ⟨by rw [d2 k (by omega), if_neg (by omega)], ?_⟩
      by_cases e : k = q
      · subst e; exact Or.inl d3
      · right; rw [d2 (k + n) (by omega), if_neg (by omega)]
    have e6 : (step1 n (q + n) s4).tab (q + n) q = 1 := by
      rw [e3 q hq, d3]; simp
    have e0 := e1.zero hs (le_refl q) hq
    obtain ⟨p', s6, f0, f1, f2, f3, f4, f5⟩ := step2_spec (row := q + n) e1 e2 (fun j hj => (e0 j hj).2.2.1) hq e6
    obtain rfl : p' = q := by omega
    have f6 : s6.tab p' = s4.tab p' := by
      rw [f5, e5]
      · intro k hk _; rw [e5, d2 k (by omega), if_neg (by omega)]
      · intro k hk hkp _; rw [e5, d2 (k + n) (by omega), if_neg (by omega)]
    simp only [f0]
    rw [if_neg (by simp)]
    refine ⟨_, rfl, (f1.addH (le_refl p') hq).next ?_ (f4.addH_x hq)⟩
    apply UnitRow.addH_z hq
    rw [f6]; exact d2

theorem processAll_spec {n : ℕ} {tab0 : GF2} (hs : Sympl n tab0) : ∀ m q (s : St), Inv n tab0 q s → q + m = n →
    ∃ s', processAll n (List.range' q m) s = .ok s' ∧ Inv n tab0 n s' := by
  intro m
  induction m with
  | zero => intro q s h e; obtain rfl : q = n := by omega
            exact ⟨s, rfl, h⟩
  | succ m ih =>
    intro q s h e
    obtain ⟨s1, h1, h2⟩ := processQubit_spec h hs (by omega)
    obtain ⟨s2, h3, h4⟩ := ih (q + 1) s1 h2 (by omega)
    refine ⟨s2, ?_, h4⟩
    rw [List.range'_succ]
    simp only [processAll, h1, bind, Except.bind]
    exact h3

/-! ### Signs -/

/-- The Pauli correction of a qubit. -/
noncomputable def signMat (n : ℕ) (tab : GF2) (q : ℕ) : Mat2 := pm (tab (q + n) (2 * n)) (tab q (2 * n))

theorem signInstrs_gates (n : ℕ) (tab : GF2) (q : ℕ) (ψ : QState) : gates (signInstrs n tab q).reverse ψ = op1 (signMat n tab q) q ψ := by
  unfold signInstrs signMat
  rcases zc2 (tab q (2 * n)) with e1 | e1 <;> rcases zc2 (tab (q + n) (2 * n)) with e2 | e2 <;> rw [e1, e2] <;> simp [gates, Instr.gate, op1_one]

theorem signs_gates (n : ℕ) (tab : GF2) (l : List ℕ) (ψ : QState) :
    gates (l.flatMap (signInstrs n tab)).reverse ψ = locOps (signMat n tab) l ψ := by
  induction l with
  | nil => rfl
  | cons a l ih =>
    rw [List.flatMap_cons, List.reverse_append, gates_append, ih, signInstrs_gates]
    rfl

theorem signInstrs_ok (n : ℕ) (tab : GF2) (q : ℕ) (hq : q < n) :
    ∀ i ∈ signInstrs n tab q, i.isGate ∧ Circuit.instrOk (Finset.range n) i = true := by
  unfold signInstrs
  intro i hi
  split_ifs at hi <;> simp at hi <;> subst hi <;> simp [Instr.isGate, Circuit.instrOk, hq]

theorem locOps_conj {F : ℕ → Mat2} {A : Mat2} {c : ℂ} {q : ℕ} {l : List ℕ} (hl : l.Nodup) (hq : q ∈ l) (h : F q * A = c • (A * F q))
    (ψ : QState) : locOps F l (op1 A q ψ) = c • op1 A q (locOps F l ψ) := by
  rw [locOps_op1_right F A hl hq, op1_locOps F A hl hq, h, locOps_update_smul _ _ _ hl hq]

theorem rowOp_unit_x {n q : ℕ} {t : ℕ → ZMod 2} (h : UnitRow n t q) (hq : q < n) (ψ : QState) :
    rowOp n t ψ = sg2 (t (2 * n)) • op1 Ops.X q ψ := by
  unfold rowOp
  congr 1
  rw [locOps_congr (G := update (fun _ => 1) q (Ops.X * 1))]
  · rw [← op1_locOps (fun _ => 1) Ops.X List.nodup_range (List.mem_range.2 hq), locOps_one]
  · intro k hk
    have hk := List.mem_range.1 hk
    rw [h k (by omega), h (k + n) (by omega)]
    by_cases e : k = q
    · subst e
      rw [if_pos rfl, if_neg (by omega), update_self, pm10, mul_one]
    · rw [if_neg e, if_neg (by omega), update_of_ne e, pm00]

theorem rowOp_unit_z {n q : ℕ} {t : ℕ → ZMod 2} (h : UnitRow n t (q + n)) (hq : q < n) (ψ : QState) :
    rowOp n t ψ = sg2 (t (2 * n)) • op1 Ops.Z q ψ := by
  unfold rowOp
  congr 1
  rw [locOps_congr (G := update (fun _ => 1) q (Ops.Z * 1))]
  · rw [← op1_locOps (fun _ => 1) Ops.Z List.nodup_range (List.mem_range.2 hq), locOps_one]
  · intro k hk
    have hk := List.mem_range.1 hk
    rw [h k (by omega), h (k + n) (by omega)]
    by_cases e : k = q
    · subst e
      rw [if_pos rfl, if_neg (by omega), update_self, pm01, mul_one]
    · rw [if_neg (by omega), if_neg (by omega), update_of_ne e, pm00]

/-- After all qubits: the circuit maps the generators to the rows of the initial tableau. -/
theorem final_spec {n : ℕ} {tab0 : GF2} {s : St} (h : Inv n tab0 n s) :
    (∀ i ∈ (correctSigns n s).reverse, i.isGate ∧ Circuit.instrOk (Finset.range n) i = true) ∧
      (∀ q < n, ∀ ψ, gates (correctSigns n s).reverse (op1 Ops.X q ψ) = rowOp n (tab0 q) (gates (correctSigns n s).reverse ψ)) ∧
      ∀ q < n, ∀ ψ, gates (correctSigns n s).reverse (op1 Ops.Z q ψ) = rowOp n (tab0 (q + n)) (gates (correctSigns n s).reverse ψ) := by
  obtain ⟨⟨⟨G, g1, g2, g3, g4⟩, g5⟩, hx, hz⟩ := h
  have hinv : ∀ r φ, gates s.instrs.reverse (rowOp n (s.tab r) φ) = rowOp n (tab0 r) (gates s.instrs.reverse φ) := by
    intro r φ
    rw [← g4 φ, ← g2, g3, g3]
  have hg : ∀ φ, gates (correctSigns n s).reverse φ = gates s.instrs.reverse (locOps (signMat n s.tab) (List.range n) φ) := by
    intro φ
    unfold correctSigns
    rw [List.reverse_append, gates_append, signs_gates]
  refine ⟨?_, ?_, ?_⟩
  · intro i hi
    rw [List.mem_reverse] at hi
    unfold correctSigns at hi
    rcases List.mem_append.1 hi with hi | hi
    · exact g5 i hi
    · obtain ⟨q, hq, hi⟩ := List.mem_flatMap.1 hi
      exact signInstrs_ok n s.tab q (List.mem_range.1 hq) i hi
  · intro q hq ψ
    rw [hg, hg, locOps_conj (c := sg2 (s.tab q (2 * n))) List.nodup_range (List.mem_range.2 hq), ← rowOp_unit_x (hx q hq) hq, hinv]
    unfold signMat
    rw [← pm10, pm_comm]
    congr 2
    ring
  · intro q hq ψ
    rw [hg, hg, locOps_conj (c := sg2 (s.tab (q + n) (2 * n))) List.nodup_range (List.mem_range.2 hq), ← rowOp_unit_z (hz q hq) hq, hinv]
    unfold signMat
    rw [← pm01, pm_comm]
    congr 2
    ring

/-! ### The initial tableau -/

theorem rowsOf_spec {n : ℕ} : ∀ l : List PauliString, (∀ p ∈ l, p.Valid ∧ p.dim = n) →
    ∃ rows, CliffordMap.rowsOf l = .ok rows ∧ rows.length = l.length ∧ (∀ r ∈ rows, r.1 = 2 * n + 1) ∧
      ∀ (i : ℕ) p, l[i]? = some p → ∃ t, (rows.map Prod.snd)[i]? = some t ∧ ∀ ψ, p.op ψ = rowOp n t ψ := by
  intro l
  induction l with
  | nil => intro _; exact ⟨[], rfl, rfl, by simp, by simp⟩
  | cons p l ih =>
    intro h
    obtain ⟨rows, h1, h2, h3, h4⟩ := ih fun q hq => h q (by simp [hq])
    obtain ⟨hv, hd⟩ := h p (by simp)
    obtain ⟨t, ht, -⟩ := PauliString.toTableau_spec p hv
    refine ⟨(2 * p.dim + 1, t) :: rows, ?_, by simp [h2], ?_, ?_⟩
    · simp only [CliffordMap.rowsOf, ht, h1, bind, Except.bind, pure, Except.pure]
    · intro r hr
      rcases List.mem_cons.1 hr with rfl | hr
      · simp [hd]
      · exact h3 r hr
    · intro i q hi
      cases i with
      | zero =>
        simp at hi
        subst hi
        refine ⟨t, rfl, fun ψ => ?_⟩
        rw [PauliString.op_toTableau hv ht, hd]
      | succ i =>
        simp at hi
        obtain ⟨t', a, b⟩ := h4 i q hi
        exact ⟨t', by simpa using a, b⟩

theorem toTableau_spec {cm : CliffordMap} {n : ℕ} (hcm : cm.Valid n) (hn : 0 < n) :
    ∃ sh tab, cm.toTableau = .ok (sh, tab) ∧ (∀ (i : ℕ) p, cm.xMap[i]? = some p → ∀ ψ, p.op ψ = rowOp n (tab i) ψ) ∧
      ∀ (i : ℕ) p, cm.zMap[i]? = some p → ∀ ψ, p.op ψ = rowOp n (tab (i + n)) ψ := by
  obtain ⟨rows, h1, h2, h3, h4⟩ := rowsOf_spec (n := n) (cm.xMap ++ cm.zMap) fun p hp => (List.mem_append.1 hp).elim (hcm.x_ok p) (hcm.z_ok p)
  have hlen : rows.length = n + n := by rw [h2, List.length_append, hcm.xlen, hcm.zlen]
  match rows, hlen, h1, h3, h4 with
  | [], hlen, _, _, _ => simp at hlen; omega
  | (w, t) :: rows, hlen, h1, h3, h4 =>
    refine ⟨((rows.length + 1, w)), fun i j => ((((w, t) :: rows).map Prod.snd).getD i t) j, ?_, ?_, ?_⟩
    · unfold CliffordMap.toTableau
      rw [if_neg (by rw [hcm.inputs, hcm.outputs]; simp)]
      simp only [h1, bind, Except.bind, pure, Except.pure]
      rw [if_neg]
      · rfl
      have hw := h3 (w, t) (by simp)
      simp only [List.any_eq_true, not_exists, not_and, decide_eq_true_eq, not_not]
      intro r hr
      rw [h3 r (by simp [hr]), ← hw]
    · intro i p hp ψ
      obtain ⟨t', a, b⟩ := h4 i p (by rw [List.getElem?_append_left (List.getElem?_eq_some_iff.1 hp).1]; exact hp)
      rw [b ψ]
      congr 1
      funext j
      simp only [List.getD_eq_getElem?_getD, a, Option.getD_some]
    · intro i p hp ψ
      obtain ⟨t', a, b⟩ := h4 (i + n) p (by
        rw [List.getElem?_append_right (by rw [hcm.xlen]; omega), hcm.xlen, show i + n - n = i by omega]; exact hp)
      rw [b ψ]
      congr 1
      funext j
      simp only [List.getD_eq_getElem?_getD, a, Option.getD_some]

theorem sympl_of_valid {cm : CliffordMap} {n : ℕ} (hcm : cm.Valid n) {tab : GF2}
    (hx : ∀ (i : ℕ) p, cm.xMap[i]? = some p → ∀ ψ, p.op ψ = rowOp n (tab i) ψ)
    (hz : ∀ (i : ℕ) p, cm.zMap[i]? = some p → ∀ ψ, p.op ψ = rowOp n (tab (i + n)) ψ) : Sympl n tab := by
  have gx : ∀ i < n, ∃ p, cm.xMap[i]? = some p ∧ p ∈ cm.xMap := fun i hi =>
    ⟨_, List.getElem?_eq_getElem (by rw [hcm.xlen]; exact hi), List.getElem_mem _⟩
  have gz : ∀ i < n, ∃ p, cm.zMap[i]? = some p ∧ p ∈ cm.zMap := fun i hi =>
    ⟨_, List.getElem?_eq_getElem (by rw [hcm.zlen]; exact hi), List.getElem_mem _⟩
  refine ⟨fun i hi j hj => ?_, fun i hi j hj => ?_, fun i hi j hj => ?_⟩
  · obtain ⟨p, p1, p2⟩ := gx i hi
    obtain ⟨p', p1', p2'⟩ := gx j hj
    apply symp_of_comm
    intro ψ
    rw [sg2_zero, one_smul, ← hx _ _ p1, ← hx _ _ p1', ← hx _ _ p1', ← hx _ _ p1]
    exact hcm.xx p p2 p' p2' ψ
  · obtain ⟨p, p1, p2⟩ := gz i hi
    obtain ⟨p', p1', p2'⟩ := gz j hj
    apply symp_of_comm
    intro ψ
    rw [sg2_zero, one_smul, ← hz _ _ p1, ← hz _ _ p1', ← hz _ _ p1', ← hz _ _ p1]
    exact hcm.zz p p2 p' p2' ψ
  · obtain ⟨p, p1, p2⟩ := gx i hi
    obtain ⟨p', p1', p2'⟩ := gz j hj
    have := hcm.xz i j p p' p1 p1'
    apply symp_of_comm
    intro ψ
    rw [← hx _ _ p1, ← hz _ _ p1', ← hz _ _ p1', ← hx _ _ p1]
    by_cases e : i = j
    · rw [if_pos e] at this ⊢
      rw [this ψ, sg2_one, neg_one_smul]
    · rw [if_neg e] at this ⊢
      rw [this ψ, sg2_zero, one_smul]

end Berg
end Graphix
