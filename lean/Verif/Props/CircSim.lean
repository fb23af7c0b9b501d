import Verif.Proofs.CircRunDM

/-!
# Property C58: `Circuit.simulate` on the state-vector and the density-matrix backends
-/

namespace Graphix

open Function

/-! ### Bookkeeping -/

theorem mem_afterList {s : Finset ℕ} {l : List Instr} {n : ℕ} : n ∈ Circuit.afterList s l ↔ n ∈ s ∧ n ∉ circMeasured l := by
  induction l generalizing s with
  | nil => simp [Circuit.afterList, circMeasured]
  | cons i l ih =>
    rw [Circuit.afterList, ih]
    cases i <;> simp [Instr.after, circMeasured]
    tauto

theorem mem_circLive {w : ℕ} {l : List Instr} {n : ℕ} : n ∈ circLive w l ↔ n < w ∧ n ∉ circMeasured l := by
  simp [circLive]

theorem circLive_nil (w : ℕ) : circLive w [] = List.range w := by simp [circLive, circMeasured]

theorem circLive_nodup (w : ℕ) (l : List Instr) : (circLive w l).Nodup := List.nodup_range.filter _

theorem circLive_gate (w : ℕ) (l : List Instr) {i : Instr} (h : i.isGate) : circLive w (l ++ [i]) = circLive w l := by
  unfold circLive; rw [circMeasured_append, circMeasured_gate h, List.append_nil]

theorem circLive_M (w : ℕ) (l : List Instr) (t : ℕ) (a : Axis) : circLive w (l ++ [.M t a]) = (circLive w l).erase t := by
  rw [erase_eq_filter (circLive_nodup w l)]
  unfold circLive
  rw [List.filter_filter, circMeasured_append, circMeasured_M]
  apply List.filter_congr
  intro n _
  simp only [List.mem_append, List.mem_singleton]
  by_cases h1 : n ∈ circMeasured l <;> by_cases h2 : n = t <;> simp [h1, h2]

theorem circRecord_gate (l : List Instr) (ms : List Bool) {i : Instr} (h : i.isGate) : circRecord (l ++ [i]) ms = circRecord l ms := by
  unfold circRecord; rw [circMeasured_append, circMeasured_gate h, List.append_nil]

theorem circRecord_M (l : List Instr) (ms : List Bool) (hlen : ms.length = (circMeasured l).length) (t : ℕ) (a : Axis) (o : Bool) :
    circRecord (l ++ [.M t a]) (ms ++ [o]) = (circRecord l ms).set t o := by
  unfold circRecord
  rw [circMeasured_append, circMeasured_M, List.zip_append hlen.symm, List.foldl_append]
  rfl

theorem circDens_gate {ρ₀ : QDens} (hρ : IsMixture ρ₀) (l : List Instr) (ms : List Bool) {i : Instr} (h : i.isGate) :
    circDens ρ₀ (l ++ [i]) ms = conjBy i.gate (circDens ρ₀ l ms) := by
  unfold circDens
  have e : semInstrs (outcomeOf ms) 0 (l ++ [i]) = fun ψ => i.gate (semInstrs (outcomeOf ms) 0 l ψ) := by
    funext ψ; exact circState_gate ψ l ms h
  rw [e, conjBy_comp i.gate_lin (semInstrs_lin _ _ _) hρ]

theorem circDens_M {ρ₀ : QDens} (hρ : IsMixture ρ₀) (l : List Instr) (ms : List Bool) (hlen : ms.length = (circMeasured l).length)
    (t : ℕ) (a : Axis) (o : Bool) :
    circDens ρ₀ (l ++ [.M t a]) (ms ++ [o]) = conjBy (projOut t (measVec (.pauli ⟨a, .plus⟩) o)) (circDens ρ₀ l ms) := by
  unfold circDens
  have e : semInstrs (outcomeOf (ms ++ [o])) 0 (l ++ [.M t a]) =
      fun ψ => projOut t (measVec (.pauli ⟨a, .plus⟩) o) (semInstrs (outcomeOf ms) 0 l ψ) := by
    funext ψ; exact circState_M ψ l ms hlen t a o
  rw [e, conjBy_comp (Lin.projOut _ _) (semInstrs_lin _ _ _) hρ]

theorem circDens_pure (ψ₀ : QState) (l : List Instr) (ms : List Bool) : circDens (ketBra ψ₀) l ms = ketBra (circState ψ₀ l ms) :=
  conjBy_ketBra (semInstrs_lin _ _ _).smul _

theorem circProb_pure (w : ℕ) (ψ₀ : QState) (l : List Instr) (ms : List Bool) :
    circProb w (ketBra ψ₀) l ms = (stateNormSq (circLive w l) (circState ψ₀ l ms) : ℂ) := by
  unfold circProb; rw [circDens_pure, traceOn_ketBra]

section

variable {sel : PyDict ℕ Bool → ℕ → ℝ → Except PyErr Bool} {w : ℕ} {ρ₀ : QDens}

theorem CircChosen.nil : CircChosen sel w ρ₀ [] [] := ⟨rfl, fun pre t a post h => by simp at h⟩

theorem CircChosen.gate {l : List Instr} {ms : List Bool} (h : CircChosen sel w ρ₀ l ms) {i : Instr} (hg : i.isGate) :
    CircChosen sel w ρ₀ (l ++ [i]) ms := by
  refine ⟨by rw [circMeasured_append, circMeasured_gate hg, List.append_nil]; exact h.1, fun pre t a post he => ?_⟩
  rcases List.eq_nil_or_concat post with rfl | ⟨post, y, rfl⟩
  · have := (List.cons.inj (List.append_inj' he rfl).2).1
    rw [this] at hg; exact hg.elim
  · rw [List.concat_eq_append, ← List.cons_append, ← List.append_assoc] at he
    exact h.2 pre t a post (List.append_inj' he rfl).1

theorem CircChosen.M {l : List Instr} {ms : List Bool} (h : CircChosen sel w ρ₀ l ms) {t : ℕ} {a : Axis} {o : Bool}
    (ha : CircAnswers sel w ρ₀ l ms t a (.ok o)) : CircChosen sel w ρ₀ (l ++ [.M t a]) (ms ++ [o]) := by
  refine ⟨by rw [circMeasured_append, circMeasured_M, List.length_append, List.length_append, h.1]; rfl, fun pre t' a' post he => ?_⟩
  rcases List.eq_nil_or_concat post with rfl | ⟨post, y, rfl⟩
  · obtain ⟨rfl, h2⟩ := List.append_inj' he rfl
    have h3 := (List.cons.inj h2).1
    injection h3 with e1 e2
    subst e1 e2
    rw [← h.1, outcomeOf_last, List.take_left']
    · exact ha
    · rfl
  · rw [List.concat_eq_append, ← List.cons_append, ← List.append_assoc] at he
    have hl := (List.append_inj' he rfl).1
    have hlt : (circMeasured pre).length < ms.length := by
      rw [h.1, hl, circMeasured_append, show Instr.M t' a' :: post = [.M t' a'] ++ post from rfl, circMeasured_append, circMeasured_M]
      simp
    have := h.2 pre t' a' post hl
    rw [outcomeOf_append hlt, List.take_append_of_le_length hlt.le]
    exact this

end

/-! ### The state-vector backend -/

/-- State of the simulation of a circuit after the instructions `pre`. -/
structure CircInv (env : SimEnv) (w : ℕ) (ψ₀ : QState) (pre : List Instr) (cs : SimState × List Bool) : Prop where
  reg : RegInv (circLive w pre) cs.1
  results : cs.1.results = circRecord pre cs.2
  chosen : CircChosen env.sel w (ketBra ψ₀) pre cs.2
  sem : ∃ c : ℂ, c ≠ 0 ∧ (circMeasured pre = [] → c = 1) ∧ absState (circLive w pre) cs.1.sv.psi = c • circState ψ₀ pre cs.2

theorem CircInv.gate {env : SimEnv} (henv : env.Ok []) {w : ℕ} {ψ₀ : QState} {pre : List Instr} {cs : SimState × List Bool}
    (inv : CircInv env w ψ₀ pre cs) (k : ℕ) {i : Instr} (hg : i.isGate)
    (hok : Circuit.instrOk (Circuit.afterList (Finset.range w) pre) i = true) :
    ∃ cs', circStep env k cs i = .ok cs' ∧ CircInv env w ψ₀ (pre ++ [i]) cs' := by
  obtain ⟨st, ms⟩ := cs
  obtain ⟨sv', h1, h2, h3⟩ := inv.reg.gate henv k ms hg hok (fun n hn => by
    rw [mem_afterList, Finset.mem_range] at hn; exact mem_circLive.2 hn)
  refine ⟨_, h1, ?_⟩
  obtain ⟨c, hc, hc1, hsem⟩ := inv.sem
  refine ⟨by rw [circLive_gate w pre hg]; exact h2, by rw [circRecord_gate _ _ hg]; exact inv.results, inv.chosen.gate hg, c, hc, ?_, ?_⟩
  · rw [circMeasured_append, circMeasured_gate hg, List.append_nil]; exact hc1
  · rw [circLive_gate w pre hg, circState_gate _ _ _ hg]
    show absState _ sv'.psi = _
    rw [h3, hsem, i.gate_lin.smul]

theorem CircInv.M {env : SimEnv} (henv : env.Ok []) {w : ℕ} {ψ₀ : QState} {pre : List Instr} {cs : SimState × List Bool}
    (inv : CircInv env w ψ₀ pre cs) (k : ℕ) {t : ℕ} {a : Axis}
    (hok : Circuit.instrOk (Circuit.afterList (Finset.range w) pre) (.M t a) = true) :
    (∃ cs', circStep env k cs (.M t a) = .ok cs' ∧ CircInv env w ψ₀ (pre ++ [.M t a]) cs') ∨
    ∃ e, circStep env k cs (.M t a) = .error e ∧
      (CircAnswers env.sel w (ketBra ψ₀) pre cs.2 t a (.error e) ∨
        ∃ o, CircAnswers env.sel w (ketBra ψ₀) pre cs.2 t a (.ok o) ∧ e = .runtimeError ∧
        ‖circProb w (ketBra ψ₀) (pre ++ [.M t a]) (cs.2 ++ [o])‖ ≤ 2 * atol * ‖circProb w (ketBra ψ₀) pre cs.2‖) := by
  obtain ⟨st, ms⟩ := cs
  have ht : t ∈ circLive w pre := by
    simp only [Circuit.instrOk, decide_eq_true_eq] at hok
    rw [mem_afterList, Finset.mem_range] at hok; exact mem_circLive.2 hok
  obtain ⟨c, hc, hc1, hsem⟩ := inv.sem
  obtain ⟨P, hP0, hsum, hPs, h⟩ := inv.reg.measure henv k ht (.pauli ⟨a, .plus⟩)
  have hlen : ms.length = (circMeasured pre).length := inv.chosen.1
  have hone : Complex.normSq c * stateNormSq (circLive w pre) (circState ψ₀ pre ms) = 1 := by
    rw [← stateNormSq_smul, ← hsem, stateNormSq_abs _ inv.reg.nodup, inv.reg.nqubit, inv.reg.norm]
  have hPo : ∀ o, Complex.normSq c * stateNormSq (circLive w (pre ++ [.M t a])) (circState ψ₀ (pre ++ [.M t a]) (ms ++ [o])) = P o := by
    intro o
    rw [← hPs o, circLive_M, circState_M _ _ _ hlen, ← stateNormSq_smul, hsem, projOut_smul]
  have hprob : ∀ o, circProb w (ketBra ψ₀) (pre ++ [.M t a]) (ms ++ [o]) = (P o : ℂ) * circProb w (ketBra ψ₀) pre ms := by
    intro o
    rw [circProb_pure, circProb_pure, ← hPo o]
    rw [← Complex.ofReal_mul]
    congr 1
    linear_combination -(stateNormSq (circLive w (pre ++ [.M t a])) (circState ψ₀ (pre ++ [.M t a]) (ms ++ [o]))) * hone
  have hne : circProb w (ketBra ψ₀) pre ms ≠ 0 := by
    rw [circProb_pure]
    intro h0
    have : stateNormSq (circLive w pre) (circState ψ₀ pre ms) = 0 := by exact_mod_cast h0
    rw [this] at hone; simp at hone
  have hans : ∀ x, env.sel st.results t (P false) = x → CircAnswers env.sel w (ketBra ψ₀) pre ms t a x := by
    intro x hx
    have hr : st.results = circRecord pre ms := inv.results
    refine ⟨P false, hP0 false, by have := hP0 true; linarith, hne, fun o => ?_, by rw [← hr]; exact hx⟩
    rw [hprob]
    congr 2
    cases o
    · simp
    · simp; linarith
  rcases h with ⟨e, h1, h2⟩ | ⟨o, h1, ⟨h2, h3⟩ | ⟨sv', idx', c', h2, h3, hc', hpos, h4⟩⟩
  · right
    exact ⟨e, by simp only [circStep, h2, bind, Except.bind], Or.inl (hans _ h1)⟩
  · right
    refine ⟨_, by simp only [circStep, h2, bind, Except.bind], Or.inr ⟨o, hans _ h1, rfl, ?_⟩⟩
    dsimp only
    rw [hprob, norm_mul]
    refine mul_le_mul_of_nonneg_right ?_ (norm_nonneg _)
    rw [Complex.norm_real, Real.norm_of_nonneg (hP0 o)]
    exact h3
  · left
    refine ⟨(⟨sv', idx', st.results.set t o⟩, ms ++ [o]), by simp only [circStep, h2, bind, Except.bind]; rfl, ?_⟩
    refine ⟨?_, ?_, inv.chosen.M (hans _ h1), c' * c, mul_ne_zero hc' hc, ?_, ?_⟩
    · rw [circLive_M]
      exact ⟨h3.idx, h3.list, h3.wf, h3.nqubit, h3.norm⟩
    · rw [circRecord_M _ _ hlen]
      show st.results.set t o = _
      rw [show st.results = circRecord pre ms from inv.results]
    · rw [circMeasured_append, circMeasured_M]
      intro hcon; simp at hcon
    · rw [circLive_M, circState_M _ _ _ hlen]
      show absState _ sv'.psi = _
      rw [h4, hsem, projOut_smul, smul_smul]

theorem circLoop_spec {env : SimEnv} (henv : env.Ok []) {w : ℕ} {ψ₀ : QState} {l : List Instr}
    (hl : Circuit.listOk (Finset.range w) l) : ∀ (post pre : List Instr) (k : ℕ) (cs : SimState × List Bool), l = pre ++ post →
      CircInv env w ψ₀ pre cs →
      (∃ cs', circLoop env k post cs = .ok cs' ∧ CircInv env w ψ₀ l cs') ∨
      ∃ e, circLoop env k post cs = .error e ∧ CircFails env.sel w (ketBra ψ₀) l (2 * atol) .runtimeError e := by
  intro post
  induction post with
  | nil =>
    intro pre k cs h inv
    rw [List.append_nil] at h; subst h
    exact Or.inl ⟨cs, rfl, inv⟩
  | cons i post ih =>
    intro pre k cs h inv
    have hok : Circuit.instrOk (Circuit.afterList (Finset.range w) pre) i = true := by
      rw [h, Circuit.listOk_append] at hl
      exact hl.2.1
    have next : ∀ cs', circStep env k cs i = .ok cs' → CircInv env w ψ₀ (pre ++ [i]) cs' →
        (∃ cs', circLoop env k (i :: post) cs = .ok cs' ∧ CircInv env w ψ₀ l cs') ∨
        ∃ e, circLoop env k (i :: post) cs = .error e ∧ CircFails env.sel w (ketBra ψ₀) l (2 * atol) .runtimeError e := by
      intro cs' h1 h2
      have := ih (pre ++ [i]) (k + 1) cs' (by rw [h]; simp) h2
      simp only [circLoop, h1, bind, Except.bind]
      exact this
    by_cases hg : i.isGate
    · obtain ⟨cs', h1, h2⟩ := inv.gate henv k hg hok
      exact next cs' h1 h2
    · cases i <;> first | exact absurd trivial hg | skip
      rename_i t a
      rcases inv.M henv k hok with ⟨cs', h1, h2⟩ | ⟨e, h1, h2⟩
      · exact next cs' h1 h2
      · right
        exact ⟨e, by simp only [circLoop, h1, bind, Except.bind], pre, t, a, post, cs.2, h, inv.chosen, h2⟩

theorem circInput_ok (junk : ℕ → Buf) (w : ℕ) (data : InputData) (plusObj : Bool)
    (hd : data.Ok w) (hplus : plusObj = true → data = .state PlanarState.plus) (env : SimEnv) :
    ∃ sv, circInput w data plusObj junk = .ok sv ∧
      CircInv env w (data.toState (List.range w)) [] (⟨sv, NodeIndex.clear.extend (List.range w), []⟩, []) := by
  have hidx : (NodeIndex.clear.extend (List.range w)).Inv := NodeIndex.Inv.clear.extend (by simpa [NodeIndex.clear] using List.nodup_range)
  have hlist : (NodeIndex.clear.extend (List.range w)).list = List.range w := by simp [NodeIndex.clear, NodeIndex.extend]
  have hwf0 : (Statevector.mk (fun _ => 1) 0 0).Wf := le_refl _
  obtain ⟨i1, -, i3, i4⟩ := Statevector.ensureCapacity_spec (junk 0) _ hwf0 w
  set sv0 := initialBackend (junk 0) w with hsv0
  have j1 : sv0.nqubit = 0 := i1
  have j2 : sv0.Wf := by unfold Statevector.Wf; rw [j1]; omega
  have j4 : sv0.psi 0 = 1 := i4 0 (by norm_num)
  have habs0 : absState [] sv0.psi = fun _ => 1 := by funext b; simp [absState, enc, j4]
  have hn0 : normSq 0 sv0.psi = 1 := by simp [normSq, j4]
  have fin : ∀ sv : Statevector, sv.Wf → sv.nqubit = w → normSq sv.nqubit sv.psi = 1 →
      absState (List.range w) sv.psi = data.toState (List.range w) →
      CircInv env w (data.toState (List.range w)) [] (⟨sv, NodeIndex.clear.extend (List.range w), []⟩, []) := by
    intro sv h1 h2 h3 h4
    refine ⟨⟨hidx, by rw [circLive_nil]; exact hlist, h1, by rw [circLive_nil]; simpa using h2.symm, h3⟩, rfl, CircChosen.nil, 1,
      one_ne_zero, fun _ => rfl, ?_⟩
    rw [circLive_nil, one_smul]; exact h4
  unfold circInput
  simp only [← hsv0]
  by_cases hc : w = 1 ∧ plusObj = true
  · rw [if_pos hc]
    refine ⟨_, rfl, ?_⟩
    obtain ⟨e1, e2, e3, e4⟩ := C41_add_node (junk 1) true sv0 j2 PlanarState.plus (fun _ => rfl) [] (by simp [j1]) 0
    rw [j1] at e1 e4
    refine fin _ e2 (by rw [e1, hc.1]) (by rw [e1, e4, hn0]) ?_
    rw [hc.1, show List.range 1 = [] ++ [0] from rfl, e3, habs0, hplus hc.2]
    rfl
  · rw [if_neg hc]
    obtain ⟨other, o1, o2, o3, o4⟩ := init_ok (List.range w) data (by simpa using hd)
    rw [List.length_range] at o1 o2
    obtain ⟨e1, e2, e3, e4⟩ := C41_tensor (junk 1) sv0 other j2 [] (List.range w) (by simp [j1]) (by simpa using o2.symm)
    refine ⟨sv0.tensor (junk 1) other, by rw [o1]; rfl, ?_⟩
    rw [j1, zero_add] at e1 e4
    refine fin _ e2 (by rw [e1, o2]) (by rw [e1, e4, hn0, o2]; simpa using o4) ?_
    rw [List.nil_append] at e3
    rw [e3, habs0, o3]
    funext b; simp

/-- **C58** `Circuit.simulate` on the state-vector backend, for every circuit built by the methods of the class, every normalised input,
every branch selector, every scheduling of the parallel kernels and every contents of uninitialised memory: either the simulation reaches
the end, the returned measurement outcomes are the answers of the branch selector, which was asked with the probabilities of quantum
mechanics, the returned state has one qubit for each qubit of the circuit that was not measured, in increasing order, is normalised, and is
the state of the circuit for these outcomes, up to a scalar factor (none when nothing is measured); or it stops at a measurement because
the branch selector raised, or because it chose an outcome of probability at most `2e-10` (`RuntimeError`). -/
theorem C58_simulate (c : Circuit) (hc : c.Built) (env : SimEnv) (henv : env.Ok []) (data : InputData) (plusObj : Bool)
    (hd : data.Ok c.width) (hplus : plusObj = true → data = .state PlanarState.plus) (junk : ℕ → Buf) :
    (∃ sv ms, c.simulate env data plusObj junk = .ok (sv, ms) ∧
      CircChosen env.sel c.width (ketBra (data.toState (List.range c.width))) c.instrs ms ∧
      sv.nqubit = (circLive c.width c.instrs).length ∧ normSq sv.nqubit sv.psi = 1 ∧
      ∃ k : ℂ, k ≠ 0 ∧ (circMeasured c.instrs = [] → k = 1) ∧
        absState (circLive c.width c.instrs) sv.psi = k • circState (data.toState (List.range c.width)) c.instrs ms) ∨
    ∃ e, c.simulate env data plusObj junk = .error e ∧
      CircFails env.sel c.width (ketBra (data.toState (List.range c.width))) c.instrs (2 * atol) .runtimeError e := by
  obtain ⟨sv, h1, inv⟩ := circInput_ok junk c.width data plusObj hd hplus env
  rcases circLoop_spec henv hc.listOk.1 c.instrs [] 0 _ rfl inv with ⟨cs, h2, inv'⟩ | ⟨e, h2, h3⟩
  · left
    refine ⟨cs.1.sv, cs.2, ?_, inv'.chosen, inv'.reg.nqubit.symm, inv'.reg.norm, inv'.sem⟩
    unfold Circuit.simulate
    simp only [h1, h2, bind, Except.bind]; rfl
  · right
    refine ⟨e, ?_, h3⟩
    unfold Circuit.simulate
    simp only [h1, h2, bind, Except.bind]

/-- **C58** The qubits of the returned state are the qubits that the circuit reports as active. -/
theorem C58_active (c : Circuit) (hc : c.Built) : circLive c.width c.instrs = c.active.sort (· ≤ ·) := by
  have hmem : ∀ n, n ∈ circLive c.width c.instrs ↔ n ∈ c.active.sort (· ≤ ·) := by
    intro n
    rw [mem_circLive, Finset.mem_sort, hc.listOk.2, mem_afterList, Finset.mem_range]
  have hs : (circLive c.width c.instrs).Pairwise (· < ·) := List.pairwise_lt_range.filter _
  have hp : (circLive c.width c.instrs).Perm (c.active.sort (· ≤ ·)) :=
    (List.perm_ext_iff_of_nodup (circLive_nodup _ _) (Finset.sort_nodup _ _)).2 hmem
  exact hp.eq_of_pairwise (fun a b _ _ h1 h2 => le_antisymm h1 h2) (hs.imp le_of_lt) (Finset.pairwise_sort _ _)

end Graphix
