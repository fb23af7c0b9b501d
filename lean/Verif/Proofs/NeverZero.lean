import Verif.Proofs.RemovePauli
import Verif.Proofs.Reindex

/-!
# Some branch of a runnable pattern has a nonzero probability
-/

namespace Graphix

open Function

theorem NoBit.op1 {n : ℕ} {ψ : QState} (h : NoBit n ψ) (U : Mat2) {m : ℕ} (hm : m ≠ n) : NoBit n (Graphix.op1 U m ψ) := by
  intro b x
  simp only [Graphix.op1, update_of_ne hm, update_comm hm.symm, h (update b m _) x]

theorem NoBit.sem {n : ℕ} {ψ : QState} (h : NoBit n ψ) (r : ℕ → Bool) {c : Command} (hc : n ∉ c.mentions) : NoBit n (c.sem r ψ) := by
  cases c with
  | N m st =>
    have hm : n ≠ m := by simpa [Command.mentions] using hc
    intro b x
    simp only [Command.sem, prep, update_of_ne hm.symm, h b x]
  | M m me s t =>
    have hm : m ≠ n := by rintro rfl; simp [Command.mentions] at hc
    simp only [Command.sem, projOut_eq_op1]
    exact ((h.op1 _ hm).op1 _ hm).op1 _ hm
  | E u v =>
    have hm : n ≠ u ∧ n ≠ v := by simpa [Command.mentions] using hc
    intro b x
    simp only [Command.sem, cz, update_of_ne hm.1.symm, update_of_ne hm.2.symm, h b x]
  | C m c =>
    have hm : n ≠ m := by simpa [Command.mentions] using hc
    exact h.op1 _ hm.symm
  | X m d =>
    have hm : m ≠ n := by rintro rfl; simp [Command.mentions] at hc
    exact h.op1 _ hm
  | Z m d =>
    have hm : m ≠ n := by rintro rfl; simp [Command.mentions] at hc
    exact h.op1 _ hm
  | S _ _ => exact h
  | T => exact h

theorem NoBit.semCmds {n : ℕ} (r : ℕ → Bool) (l : List Command) : ∀ {ψ : QState}, NoBit n ψ → (∀ c ∈ l, n ∉ c.mentions) →
    NoBit n (semCmds r l ψ) := by
  induction l with
  | nil => intro ψ h _; exact h
  | cons c l ih => intro ψ h hc; exact ih (h.sem r (hc c (by simp))) fun c hc' => hc c (by simp [hc'])

theorem op1_ne_zero {U V : Mat2} (h : V * U = 1) {n : ℕ} {ψ : QState} (hψ : ψ ≠ 0) : op1 U n ψ ≠ 0 := by
  intro hc
  apply hψ
  have : op1 V n (op1 U n ψ) = 0 := by rw [hc]; funext b; simp [op1]
  rw [op1_mul, h, op1_one] at this
  exact this

theorem powB_X_sq (x : Bool) : powB Ops.X x * powB Ops.X x = 1 := by
  cases x
  · simp [powB]
  · simp [powB, Ops.X, mat2_mul, mat2_one]

theorem powB_Z_sq (x : Bool) : powB Ops.Z x * powB Ops.Z x = 1 := by
  cases x
  · simp [powB]
  · simp [powB, Ops.Z, mat2_mul, mat2_one]

theorem outer_measVec_sum (m : Measurement) : outer (measVec m false) + outer (measVec m true) = 1 := by
  rw [outer_measVec, outer_measVec, measureOperator_eq, measureOperator_eq]
  simp only [Bool.false_eq_true, if_false, if_true]
  module

/-- One of the two outcomes of a measurement has a nonzero probability. -/
theorem exists_outcome (m : Measurement) (n : ℕ) {ψ : QState} (hψ : ψ ≠ 0) : ∃ x, projOut n (measVec m x) ψ ≠ 0 := by
  by_contra hc
  push Not at hc
  apply hψ
  have h : op1 1 n ψ = 0 := by
    rw [← outer_measVec_sum m, op1_mat_add]
    have : ∀ v, projOut n v ψ = 0 → op1 (outer v) n ψ = 0 := by
      intro v hv
      funext b
      have := congrFun hv b
      simp only [projOut, Pi.zero_apply] at this
      simp only [op1, outer, Pi.zero_apply]
      linear_combination (v (b n)) * this
    rw [this _ (hc false), this _ (hc true), add_zero]
  rwa [op1_one] at h

theorem planarState_ne (p : PlanarState) : ∃ x, p.vec x ≠ 0 := by
  by_contra hc
  push Not at hc
  have : UnitVec p.vec := planarState_unit _ _
  unfold UnitVec at this
  rw [hc, hc] at this
  simp at this

/-- Whatever the (nonzero) state of the inputs, some branch of a runnable pattern is possible. -/
theorem exists_branch {inputs : List ℕ} {l : List Command} (h : Runnable inputs l) {ψ : QState}
    (hψ : ψ ≠ 0) (ha : ∀ n ∈ l.filterMap Command.prepared?, NoBit n ψ) : ∃ r, semCmds r l ψ ≠ 0 := by
  induction l using List.reverseRecOn with
  | nil => exact ⟨fun _ => false, hψ⟩
  | append_singleton l c ih =>
    obtain ⟨r, hr⟩ := ih h.prefix fun n hn => ha n (by rw [List.filterMap_append]; exact List.mem_append_left _ hn)
    have hl := h.last
    cases c with
    | N n st =>
      refine ⟨r, ?_⟩
      rw [semCmds_append]
      have hnb : NoBit n (semCmds r l ψ) := by
        refine NoBit.semCmds r l (ha n (by simp [Command.prepared?])) fun c hc hn => ?_
        exact hl (h.prefix.mentions_introduced c hc n hn)
      intro hz
      apply hr
      obtain ⟨x, hx⟩ := planarState_ne st
      funext b
      have := congrFun hz (update b n x)
      simp only [semCmds_cons, semCmds_nil, Command.sem, prep, update_self, hnb b x, Pi.zero_apply, mul_eq_zero, hx, false_or] at this
      exact this
    | M n m s t =>
      obtain ⟨⟨-, hn⟩, hs, ht⟩ := hl
      set φ := semCmds r l ψ with hφ
      set χ := op1 (powB Ops.X (parity r s)) n (op1 (powB Ops.Z (parity r t)) n φ) with hχ
      have h1 : χ ≠ 0 := op1_ne_zero (powB_X_sq _) (op1_ne_zero (powB_Z_sq _) hr)
      obtain ⟨x, hx⟩ := exists_outcome m n h1
      refine ⟨update r n x, ?_⟩
      have e1 : semCmds (update r n x) l ψ = φ := by
        apply semCmds_congr l ∅ _ _ (DomainsOk.of_runnable h.prefix)
        intro k hk
        simp only [Finset.empty_union, List.mem_toFinset] at hk
        exact update_of_ne (by rintro rfl; exact hn hk) _ _
      have e2 : ∀ d : Finset ℕ, (∀ k ∈ d, k ∈ measuredIn l) → parity (update r n x) d = parity r d := by
        intro d hd
        apply parity_congr
        intro k hk
        exact update_of_ne (by rintro rfl; exact hn (hd _ hk)) _ _
      rw [semCmds_append, e1]
      simp only [semCmds_cons, semCmds_nil, Command.sem, e2 s hs, e2 t ht, update_self]
      exact hx
    | E u v =>
      refine ⟨r, ?_⟩
      rw [semCmds_append]
      intro hz
      apply hr
      funext b
      have := congrFun hz b
      simp only [semCmds_cons, semCmds_nil, Command.sem, cz, Pi.zero_apply, mul_eq_zero] at this
      rcases this with h | h
      · split at h <;> simp at h
      · exact h
    | C n c =>
      exact ⟨r, by rw [semCmds_append]; exact op1_ne_zero c.matrix_unitary hr⟩
    | X n d => exact ⟨r, by rw [semCmds_append]; exact op1_ne_zero (powB_X_sq _) hr⟩
    | Z n d => exact ⟨r, by rw [semCmds_append]; exact op1_ne_zero (powB_Z_sq _) hr⟩
    | S _ _ => exact ⟨r, by rw [semCmds_append]; exact hr⟩
    | T => exact ⟨r, by rw [semCmds_append]; exact hr⟩

end Graphix
