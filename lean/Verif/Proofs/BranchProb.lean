import Verif.Props.DensityNoise
import Verif.Proofs.CircRun
import Verif.Proofs.NeverZero

/-!
# Probabilities of branches: one command at a time
-/

namespace Graphix

open Function

theorem branchProb_trace (inputs : List ℕ) (ψ : QState) (pre : List Command) (r : ℕ → Bool) :
    (branchProb inputs ψ pre r : ℂ) = traceOn (liveList inputs pre) (ketBra (semCmds r pre ψ)) := (traceOn_ketBra _ _).symm

/-- The outcomes of the measurements that are not in `pre` do not matter. -/
theorem branchProb_congr {inputs : List ℕ} {pre : List Command} (h : Runnable inputs pre) (ψ : QState) {r r' : ℕ → Bool}
    (hr : ∀ n ∈ measuredIn pre, r n = r' n) : branchProb inputs ψ pre r = branchProb inputs ψ pre r' := by
  unfold branchProb
  rw [semCmds_congr pre ∅ r r' (DomainsOk.of_runnable h) (fun k hk => hr k (by simpa using hk)) ψ]

/-- The probabilities of the two outcomes of a measurement sum to the probability of the branch before it. -/
theorem branchProb_measure {inputs : List ℕ} {pre : List Command} {n : ℕ} {m : Measurement} {s t : Finset ℕ}
    (h : Runnable inputs (pre ++ [.M n m s t])) (ψ : QState) (r : ℕ → Bool) :
    branchProb inputs ψ (pre ++ [.M n m s t]) (update r n false) + branchProb inputs ψ (pre ++ [.M n m s t]) (update r n true) =
      branchProb inputs ψ pre r := by
  obtain ⟨hlive, hs, ht⟩ := h.last
  have hn := hlive.2
  have e1 : ∀ x, semCmds (update r n x) pre ψ = semCmds r pre ψ := by
    intro x
    apply semCmds_congr pre ∅ _ _ (DomainsOk.of_runnable h.prefix)
    intro k hk
    simp only [Finset.empty_union, List.mem_toFinset] at hk
    exact update_of_ne (by rintro rfl; exact hn hk) _ _
  have e2 : ∀ x, ∀ d : Finset ℕ, (∀ k ∈ d, k ∈ measuredIn pre) → parity (update r n x) d = parity r d := by
    intro x d hd
    apply parity_congr
    intro k hk
    exact update_of_ne (by rintro rfl; exact hn (hd _ hk)) _ _
  set χ := op1 (powB Ops.X (parity r s)) n (op1 (powB Ops.Z (parity r t)) n (semCmds r pre ψ)) with hχ
  have hx : ∀ x, semCmds (update r n x) (pre ++ [.M n m s t]) ψ = projOut n (measVec m x) χ := by
    intro x
    rw [semCmds_append, e1]
    simp only [semCmds_cons, semCmds_nil, Command.sem, e2 x s hs, e2 x t ht, update_self, hχ]
  have hmem : n ∈ liveList inputs pre := (mem_liveList _ _ _).2 hlive
  have hl : ∀ k, k ∈ liveList inputs (pre ++ [.M n m s t]) ↔ k ∈ (liveList inputs pre).filter (· ∉ [n]) := by
    intro k
    rw [mem_liveList, live_measure, List.mem_filter, mem_liveList]; simp
  have hU : ∀ (U : Mat2), U.conjTranspose * U = 1 → ∀ φ, stateNormSq (liveList inputs pre) (op1 U n φ) = stateNormSq (liveList inputs pre) φ :=
    fun U h φ => stateNormSq_op1 hmem h φ
  have hX : ∀ b, (powB Ops.X b).conjTranspose * powB Ops.X b = 1 := by
    intro b
    have : (powB Ops.X b).conjTranspose = powB Ops.X b := by
      cases b
      · simp [powB]
      · ext i j; cases i <;> cases j <;> simp [powB, Ops.X, mat2]
    rw [this, powB_X_sq]
  have hZ : ∀ b, (powB Ops.Z b).conjTranspose * powB Ops.Z b = 1 := by
    intro b
    have : (powB Ops.Z b).conjTranspose = powB Ops.Z b := by
      cases b
      · simp [powB]
      · ext i j; cases i <;> cases j <;> simp [powB, Ops.Z, mat2]
    rw [this, powB_Z_sq]
  apply Complex.ofReal_injective
  push_cast
  rw [branchProb_trace, branchProb_trace, hx, hx, traceOn_mem hl, traceOn_mem hl,
    ← conjBy_ketBra (fun k φ => projOut_smul n _ k φ), ← conjBy_ketBra (fun k φ => projOut_smul n _ k φ),
    traceOn_projOut_sum hmem (outer_measVec_sum m), traceOn_ketBra, hχ, hU _ (hX _), hU _ (hZ _)]
  rfl

/-- The other commands keep the probability. -/
theorem branchProb_other {inputs : List ℕ} {pre : List Command} {c : Command} (h : Runnable inputs (pre ++ [c]))
    (hM : c.measured? = none) {ψ : QState} (hψ : OnNodes inputs ψ) (r : ℕ → Bool) :
    branchProb inputs ψ (pre ++ [c]) r = branchProb inputs ψ pre r := by
  have hal := h.last
  have other : c.prepared? = none → (∀ φ, stateNormSq (liveList inputs pre) (c.sem r φ) = stateNormSq (liveList inputs pre) φ) →
      branchProb inputs ψ (pre ++ [c]) r = branchProb inputs ψ pre r := by
    intro hp hu
    have hl : ∀ k, k ∈ liveList inputs (pre ++ [c]) ↔ k ∈ liveList inputs pre := by
      intro k
      rw [mem_liveList, mem_liveList, (live_other hp hM k).1]
    unfold branchProb
    rw [stateNormSq_mem (nodup_liveList _ _) (nodup_liveList _ _) hl, semCmds_append]
    exact hu _
  cases c with
  | M => cases hM
  | N n s =>
    have hf : n ∉ introduced inputs pre := hal
    have hnm : n ∉ liveList inputs pre := fun hc => hf ((mem_liveList _ _ _).1 hc).1
    have hl : ∀ k, k ∈ liveList inputs (pre ++ [.N n s]) ↔ k ∈ liveList inputs pre ++ [n] := by
      intro k
      have hmn : n ∉ measuredIn pre := fun hc => by
        obtain ⟨c', hc', hk⟩ := List.mem_filterMap.1 hc
        exact hf (h.prefix.mentions_introduced c' hc' n (by cases c' <;> simp [Command.measured?] at hk; subst hk; simp [Command.mentions]))
      rw [mem_liveList, List.mem_append, mem_liveList]
      simp only [Live, introduced_append, measuredIn_append, Command.prepared?, Command.measured?, List.filterMap_cons, List.filterMap_nil,
        List.append_nil, List.mem_append, List.mem_singleton]
      constructor
      · rintro ⟨h1 | rfl, h2⟩
        · exact Or.inl ⟨h1, h2⟩
        · exact Or.inr rfl
      · rintro (⟨h1, h2⟩ | rfl)
        · exact ⟨Or.inl h1, h2⟩
        · exact ⟨Or.inr rfl, hmn⟩
    have hnb : NoBit n (semCmds r pre ψ) := by
      refine NoBit.semCmds r pre (fun b x => ?_) fun c' hc' hn => hf (h.prefix.mentions_introduced c' hc' n hn)
      refine hψ _ _ fun k hk => update_of_ne ?_ _ _
      rintro rfl
      exact hf (List.mem_append_left _ hk)
    apply Complex.ofReal_injective
    rw [branchProb_trace, branchProb_trace, traceOn_mem hl, semCmds_append, semCmds_cons, semCmds_nil]
    show traceOn _ (ketBra (prep n s.vec (semCmds r pre ψ))) = _
    rw [← conjBy_ketBra (fun k φ => prep_smul n _ k φ), traceOn_prep hnm]
    · have : UnitVec s.vec := planarState_unit _ _
      unfold UnitVec at this
      rw [mul_comm, mul_comm (s.vec true)]; exact this
    · intro b b' x y
      simp only [ketBra, hnb b x, hnb b' y]
  | E u v => exact other rfl fun φ => stateNormSq_cz _ u v φ
  | C n g => exact other rfl fun φ => stateNormSq_op1 ((mem_liveList _ _ _).2 hal) (Clifford.matrix_unitary g) φ
  | X n d =>
    refine other rfl fun φ => stateNormSq_op1 ((mem_liveList _ _ _).2 hal.1) ?_ φ
    have : ∀ b, (powB Ops.X b).conjTranspose = powB Ops.X b := by
      intro b; cases b
      · simp [powB]
      · ext i j; cases i <;> cases j <;> simp [powB, Ops.X, mat2]
    rw [this, powB_X_sq]
  | Z n d =>
    refine other rfl fun φ => stateNormSq_op1 ((mem_liveList _ _ _).2 hal.1) ?_ φ
    have : ∀ b, (powB Ops.Z b).conjTranspose = powB Ops.Z b := by
      intro b; cases b
      · simp [powB]
      · ext i j; cases i <;> cases j <;> simp [powB, Ops.Z, mat2]
    rw [this, powB_Z_sq]
  | S n d => exact other rfl fun φ => rfl
  | T => exact other rfl fun φ => rfl

/-- If every branch of the whole sequence has the probability `C`, every branch of a prefix has `C` times `2` for each measurement left. -/
theorem branchProb_prefix {inputs : List ℕ} {ψ : QState} (hψ : OnNodes inputs ψ) {C : ℝ} : ∀ (post pre : List Command),
    Runnable inputs (pre ++ post) → (∀ r, branchProb inputs ψ (pre ++ post) r = C) →
    ∀ r, branchProb inputs ψ pre r = 2 ^ (measuredIn post).length * C := by
  intro post
  induction post with
  | nil => intro pre _ h r; rw [List.append_nil] at h; rw [h r]; simp [measuredIn]
  | cons c post ih =>
    intro pre hrun h r
    have e : pre ++ c :: post = (pre ++ [c]) ++ post := by simp
    rw [e] at hrun h
    have := ih (pre ++ [c]) hrun h
    have hr1 : Runnable inputs (pre ++ [c]) := hrun.prefix
    cases hM : c.measured? with
    | none =>
      rw [← branchProb_other hr1 hM hψ r, this r]
      simp [measuredIn, hM]
    | some n =>
      cases c <;> simp [Command.measured?] at hM
      subst hM
      rw [← branchProb_measure hr1 ψ r, this, this]
      simp only [measuredIn, List.filterMap_cons, Command.measured?, List.length_cons, pow_succ]
      ring

/-- The branch that gives the outcome 1 exactly to the nodes of `S`. -/
def branchOnes (S : Finset ℕ) : ℕ → Bool := fun n => decide (n ∈ S)

theorem branchProb_sum {inputs : List ℕ} {ψ : QState} (hψ : OnNodes inputs ψ) (l : List Command) (h : Runnable inputs l) :
    ∑ S ∈ (measuredIn l).toFinset.powerset, branchProb inputs ψ l (branchOnes S) = branchProb inputs ψ [] (branchOnes ∅) := by
  induction l using List.reverseRecOn with
  | nil => simp [measuredIn]
  | append_singleton l c ih =>
    rw [← ih h.prefix]
    cases hM : c.measured? with
    | none =>
      have e : measuredIn (l ++ [c]) = measuredIn l := by rw [measuredIn_append]; simp [hM]
      rw [e]
      exact Finset.sum_congr rfl fun S _ => branchProb_other h hM hψ _
    | some n =>
      cases c <;> simp [Command.measured?] at hM
      rename_i k m s t
      subst hM
      have hn : k ∉ measuredIn l := h.last.1.2
      have e : (measuredIn (l ++ [.M k m s t])).toFinset = insert k (measuredIn l).toFinset := by
        rw [measuredIn_append]; ext x; simp [Command.measured?, or_comm]
      rw [e, Finset.sum_powerset_insert (by simpa using hn), ← Finset.sum_add_distrib]
      refine Finset.sum_congr rfl fun S hS => ?_
      have hkS : k ∉ S := fun hc => hn (List.mem_toFinset.1 (Finset.mem_powerset.1 hS hc))
      rw [← branchProb_measure h ψ (branchOnes S)]
      congr 2
      · funext x
        by_cases hx : x = k
        · subst hx; simp [branchOnes, hkS]
        · simp [update_of_ne hx]
      · funext x
        by_cases hx : x = k
        · subst hx; simp [branchOnes]
        · simp [update_of_ne hx, branchOnes, hx]

end Graphix
