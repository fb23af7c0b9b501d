import Verif.Props.Statevec
import Verif.Props.NodeIndex
import Verif.Props.Standardize
import Verif.Props.Measurement

/-!
# Property C10: runnable patterns run
-/

namespace Graphix

open Function

/-- The squared norm of a state of the nodes `l`: sum over the computational basis. -/
noncomputable def stateNormSq (l : List ℕ) (ψ : QState) : ℝ :=
  ∑ S ∈ l.toFinset.powerset, Complex.normSq (ψ (fun n => decide (n ∈ S)))

theorem stateNormSq_abs (l : List ℕ) (hl : l.Nodup) : ∀ psi : Buf,
    stateNormSq l (absState l psi) = normSq l.length psi := by
  induction l with
  | nil => intro psi; simp [stateNormSq, normSq, absState, enc]
  | cons n l ih =>
    intro psi
    rw [List.nodup_cons] at hl
    have hn : n ∉ l.toFinset := by simpa using hl.1
    unfold stateNormSq
    rw [List.toFinset_cons, Finset.sum_powerset_insert hn]
    have e1 : ∀ S ∈ l.toFinset.powerset, absState (n :: l) psi (fun m => decide (m ∈ S)) =
        absState l psi (fun m => decide (m ∈ S)) := by
      intro S hS
      have : n ∉ S := fun h => hn (Finset.mem_powerset.1 hS h)
      simp [absState, enc, this]
    have e2 : ∀ S ∈ l.toFinset.powerset, absState (n :: l) psi (fun m => decide (m ∈ insert n S)) =
        absState l (fun i => psi (2 ^ l.length + i)) (fun m => decide (m ∈ S)) := by
      intro S hS
      unfold absState
      simp only [enc, Finset.mem_insert_self, decide_true, Bool.toNat_true, one_mul]
      congr 2
      apply enc_congr
      intro k hk
      have : k ≠ n := by rintro rfl; exact hl.1 hk
      simp [this]
    have f1 : ∑ S ∈ l.toFinset.powerset, Complex.normSq (absState (n :: l) psi (fun m => decide (m ∈ S))) =
        ∑ S ∈ l.toFinset.powerset, Complex.normSq (absState l psi (fun m => decide (m ∈ S))) :=
      Finset.sum_congr rfl (fun S hS => by rw [e1 S hS])
    have f2 : ∑ S ∈ l.toFinset.powerset,
          Complex.normSq (absState (n :: l) psi (fun m => decide (m ∈ insert n S))) =
        ∑ S ∈ l.toFinset.powerset,
          Complex.normSq (absState l (fun i => psi (2 ^ l.length + i)) (fun m => decide (m ∈ S))) :=
      Finset.sum_congr rfl (fun S hS => by rw [e2 S hS])
    rw [f1, f2]
    have i1 := ih hl.2 psi
    have i2 := ih hl.2 (fun i => psi (2 ^ l.length + i))
    unfold stateNormSq at i1 i2
    rw [i1, i2]
    unfold normSq
    rw [List.length_cons, pow_succ, Nat.mul_two, Finset.sum_range_add]

theorem stateNormSq_smul (l : List ℕ) (c : ℂ) (ψ : QState) :
    stateNormSq l (c • ψ) = Complex.normSq c * stateNormSq l ψ := by
  unfold stateNormSq
  rw [Finset.mul_sum]
  exact Finset.sum_congr rfl (fun S _ => by rw [Pi.smul_apply, smul_eq_mul, Complex.normSq_mul])

theorem stateNormSq_perm {l l' : List ℕ} (h : l.Perm l') (ψ : QState) :
    stateNormSq l ψ = stateNormSq l' ψ := by
  unfold stateNormSq; rw [List.toFinset_eq_of_perm _ _ h]

/-- What is assumed of the environment: schedules execute every iteration once, and the object
`BasicStates.PLUS` is the plus state. -/
structure SimEnv.Ok (env : SimEnv) (seq : List Command) : Prop where
  plus : ∀ k n s, seq[k]? = some (.N n s) → env.isPlus k = true → s = PlanarState.plus
  cz : ∀ k n, (env.ordCz k n).Perm (List.range (2 ^ n))
  op : ∀ k n q, OkOrder (env.ordOp k n q) n q
  exp : ∀ k n q, (env.ordExp k n q).Perm (blockPairs n q)
  proj : ∀ k n q, (env.ordProj k n q).Perm (blockPairs n q)

/-- Branch `r` has the outcomes recorded in `results`. -/
def Agrees (results : PyDict ℕ Bool) (r : ℕ → Bool) : Prop :=
  ∀ n o, results.get? n = some o → r n = o

/-- The state of a run after the commands `pre`, for the initial state `ψ₀`. -/
structure SimInv (inputs : List ℕ) (ψ₀ : QState) (pre : List Command) (st : SimState) : Prop where
  idx : st.idx.Inv
  live : ∀ n, n ∈ st.idx.list ↔ Live inputs pre n
  results : ∀ n, (∃ o, st.results.get? n = some o) ↔ n ∈ measuredIn pre
  wf : st.sv.Wf
  nqubit : st.idx.list.length = st.sv.nqubit
  norm : normSq st.sv.nqubit st.sv.psi = 1
  sem : ∀ r, Agrees st.results r → ∃ c : ℂ, c ≠ 0 ∧ absState st.idx.list st.sv.psi = c • semCmds r pre ψ₀

theorem sumResults_spec (results : PyDict ℕ Bool) (r : ℕ → Bool) (hr : Agrees results r) :
    ∀ l : List ℕ, (∀ j ∈ l, ∃ o, results.get? j = some o) →
      SimState.sumResults results l = .ok (l.filter (fun j => r j = true)).length := by
  intro l
  induction l with
  | nil => intro _; rfl
  | cons j l ih =>
    intro h
    obtain ⟨o, ho⟩ := h j (by simp)
    have e := hr j o ho
    simp only [SimState.sumResults, ho, ih (fun k hk => h k (by simp [hk])), bind, Except.bind, pure, Except.pure]
    rw [List.filter_cons, e]
    cases o <;> simp [Nat.add_comm]

theorem sumResults_parity {results : PyDict ℕ Bool} {r : ℕ → Bool} (hr : Agrees results r) (d : Finset ℕ)
    (hd : ∀ j ∈ d, ∃ o, results.get? j = some o) :
    ∃ s, SimState.sumResults results (d.sort (· ≤ ·)) = .ok s ∧ (decide (s % 2 = 1)) = parity r d := by
  refine ⟨_, sumResults_spec results r hr _ (fun j hj => hd j ((Finset.mem_sort _).1 hj)), ?_⟩
  unfold parity
  have : ((d.sort (· ≤ ·)).filter (fun j => r j = true)).length = (d.filter (fun j => r j = true)).card := by
    have hnd : ((d.sort (· ≤ ·)).filter (fun j => r j = true)).Nodup := (Finset.sort_nodup d _).filter _
    rw [← List.toFinset_card_of_nodup hnd]
    congr 1
    ext x; simp
  rw [this]
  simp only [Nat.odd_iff]

theorem exists_agrees (results : PyDict ℕ Bool) : ∃ r, Agrees results r :=
  ⟨fun n => (results.get? n).getD false, fun n o h => by simp [h]⟩

/-- The bra of the described measurement is, up to phase, the bra of the measurement after the
signalled Paulis. -/
theorem describe_spec {results : PyDict ℕ Bool} {r : ℕ → Bool} (hr : Agrees results r) (m : Measurement)
    (s t : Finset ℕ) (hs : ∀ j ∈ s, ∃ o, results.get? j = some o) (ht : ∀ j ∈ t, ∃ o, results.get? j = some o) :
    ∃ m', SimState.describeMeasurement results m s t = .ok m' ∧ ∀ o n ψ, PhaseEq (projOut n (measVec m' o) ψ)
      (projOut n (measVec m o) (op1 (powB Ops.X (parity r s)) n (op1 (powB Ops.Z (parity r t)) n ψ))) := by
  obtain ⟨a, ha, hpa⟩ := sumResults_parity hr s hs
  obtain ⟨b, hb, hpb⟩ := sumResults_parity hr t ht
  have hX : ∀ (m : Measurement) o n ψ, PhaseEq (projOut n (measVec (m.clifford Clifford.X) o) ψ)
      (projOut n (measVec m o) (op1 Ops.X n ψ)) := by
    intro m o n ψ
    have := (projOut_clifford m Clifford.X o n ψ).symm
    rwa [Clifford.matrix_X] at this
  have hZ : ∀ (m : Measurement) o n ψ, PhaseEq (projOut n (measVec (m.clifford Clifford.Z) o) ψ)
      (projOut n (measVec m o) (op1 Ops.Z n ψ)) := by
    intro m o n ψ
    have := (projOut_clifford m Clifford.Z o n ψ).symm
    rwa [Clifford.matrix_Z] at this
  have ea : (a % 2 ≠ 0) ↔ parity r s = true := by rw [← hpa, decide_eq_true_eq]; omega
  have eb : (b % 2 ≠ 0) ↔ parity r t = true := by rw [← hpb, decide_eq_true_eq]; omega
  refine ⟨_, by unfold SimState.describeMeasurement; rw [ha, hb]; rfl, fun o n ψ => ?_⟩
  simp only [ea, eb]
  cases parity r s <;> cases parity r t <;> simp only [powB, Bool.false_eq_true, if_true, if_false, op1_one]
  · exact PhaseEq.refl _
  · exact hZ m o n ψ
  · exact hX m o n ψ
  · exact (hZ _ o n ψ).trans (hX m o n (op1 Ops.Z n ψ))

/-- The probability, in the current branch, of outcome `o` for a measurement of `n`. -/
theorem measure_prob {inputs : List ℕ} {ψ₀ : QState} {pre : List Command} {st : SimState}
    (inv : SimInv inputs ψ₀ pre st) {n : ℕ} {l1 l2 : List ℕ} (hl : st.idx.list = l1 ++ n :: l2)
    {m m' : Measurement} {s t : Finset ℕ} {r : ℕ → Bool} (hr : Agrees st.results r)
    (hd : ∀ o n ψ, PhaseEq (projOut n (measVec m' o) ψ)
      (projOut n (measVec m o) (op1 (powB Ops.X (parity r s)) n (op1 (powB Ops.Z (parity r t)) n ψ)))) :
    stateNormSq (l1 ++ l2) (semCmds r (pre ++ [.M n m s t]) ψ₀) =
      projProb st.sv.psi (measVec m' (r n)) st.sv.nqubit l1.length *
        stateNormSq (l1 ++ n :: l2) (semCmds r pre ψ₀) := by
  obtain ⟨c, hc, hsem⟩ := inv.sem r hr
  have hnd := inv.idx.nodup
  have hlen := inv.nqubit
  rw [hl] at hnd hlen hsem
  have hnd' : (l1 ++ l2).Nodup := hnd.sublist (by simp)
  have h1 : stateNormSq (l1 ++ n :: l2) (absState (l1 ++ n :: l2) st.sv.psi) = 1 := by
    rw [stateNormSq_abs _ hnd, hlen, inv.norm]
  rw [hsem, stateNormSq_smul] at h1
  have h2 : projProb st.sv.psi (measVec m' (r n)) st.sv.nqubit l1.length =
      stateNormSq (l1 ++ l2) (projOut n (measVec m' (r n)) (absState (l1 ++ n :: l2) st.sv.psi)) := by
    rw [← abs_proj hnd, stateNormSq_abs _ hnd']
    unfold projProb
    rw [hlen, show (l1 ++ l2).length = st.sv.nqubit - 1 by rw [← hlen]; simp]
  obtain ⟨d, hd1, hd2⟩ := hd (r n) n (absState (l1 ++ n :: l2) st.sv.psi)
  have h3 : projOut n (measVec m (r n)) (op1 (powB Ops.X (parity r s)) n (op1 (powB Ops.Z (parity r t)) n
      (absState (l1 ++ n :: l2) st.sv.psi))) = c • semCmds r (pre ++ [.M n m s t]) ψ₀ := by
    rw [hsem, semCmds_append, semCmds_cons, semCmds_nil, op1_smul, op1_smul, projOut_smul]
    rfl
  rw [h2, hd2, h3, stateNormSq_smul, stateNormSq_smul]
  have hd3 : Complex.normSq d = 1 := by rw [Complex.normSq_eq_norm_sq, hd1]; norm_num
  rw [hd3, one_mul]
  linear_combination -(stateNormSq (l1 ++ l2) (semCmds r (pre ++ [.M n m s t]) ψ₀)) * h1

/-- The tolerance of `project_qubit`. -/
noncomputable def atol : ℝ := 1 / 10 ^ 10

/-- The nodes alive after `pre`. -/
noncomputable def liveList (inputs : List ℕ) (pre : List Command) : List ℕ :=
  ((introduced inputs pre).filter (fun n => n ∉ measuredIn pre)).dedup

theorem mem_liveList (inputs : List ℕ) (pre : List Command) (n : ℕ) :
    n ∈ liveList inputs pre ↔ Live inputs pre n := by
  simp [liveList, Live]

theorem nodup_liveList (inputs : List ℕ) (pre : List Command) : (liveList inputs pre).Nodup :=
  List.nodup_dedup _

/-- The (unnormalised) probability of the branch `r` after `pre`. -/
noncomputable def branchProb (inputs : List ℕ) (ψ₀ : QState) (pre : List Command) (r : ℕ → Bool) : ℝ :=
  stateNormSq (liveList inputs pre) (semCmds r pre ψ₀)

theorem stateNormSq_mem {l l' : List ℕ} (hl : l.Nodup) (hl' : l'.Nodup) (h : ∀ n, n ∈ l ↔ n ∈ l') (ψ : QState) :
    stateNormSq l ψ = stateNormSq l' ψ :=
  stateNormSq_perm ((List.perm_ext_iff_of_nodup hl hl').2 h) ψ

theorem live_measure {inputs : List ℕ} {pre : List Command} {n : ℕ} {m : Measurement} {s t : Finset ℕ} (k : ℕ) :
    Live inputs (pre ++ [.M n m s t]) k ↔ Live inputs pre k ∧ k ≠ n := by
  simp only [Live, introduced_append, measuredIn_append, Command.prepared?, Command.measured?,
    List.filterMap_cons, List.filterMap_nil, List.append_nil, List.mem_append, List.mem_singleton]
  tauto

/-- What one measurement does: the selector is asked with the conditional probability `p0` of outcome
0, and then the run fails because the selector raised, or because the chosen outcome has conditional
probability at most `2 * atol`, or it goes on in the branch of the chosen outcome. -/
theorem step_measure {inputs : List ℕ} {ψ₀ : QState} {pre : List Command} {st : SimState} {env : SimEnv}
    {seq : List Command} (henv : env.Ok seq) (inv : SimInv inputs ψ₀ pre st) (k n : ℕ) (m : Measurement)
    (s t : Finset ℕ) (hal : Allowed inputs pre (.M n m s t)) :
    ∃ p0 : ℝ, 0 ≤ p0 ∧ p0 ≤ 1 ∧
      (∀ r, Agrees st.results r → branchProb inputs ψ₀ (pre ++ [.M n m s t]) r =
        (if r n then 1 - p0 else p0) * branchProb inputs ψ₀ pre r) ∧
      ((∃ e, env.sel st.results n p0 = .error e ∧ st.step env k (.M n m s t) = .error e) ∨
       ∃ o, env.sel st.results n p0 = .ok o ∧
        ((st.step env k (.M n m s t) = .error .runtimeError ∧ (if o then 1 - p0 else p0) ≤ 2 * atol) ∨
          ∃ st', st.step env k (.M n m s t) = .ok st' ∧ SimInv inputs ψ₀ (pre ++ [.M n m s t]) st' ∧
            st'.results = st.results.set n o ∧ 0 < (if o then 1 - p0 else p0))) := by
  obtain ⟨hlive, hs, ht⟩ := hal
  have hn : n ∈ st.idx.list := (inv.live n).2 hlive
  have hnm : n ∉ measuredIn pre := hlive.2
  have hsd : ∀ j ∈ s, ∃ o, st.results.get? j = some o := fun j hj => (inv.results j).2 (hs j hj)
  have htd : ∀ j ∈ t, ∃ o, st.results.get? j = some o := fun j hj => (inv.results j).2 (ht j hj)
  have hidx : st.idx.index n = .ok (st.idx.list.idxOf n) := inv.idx.index_ok hn
  obtain ⟨l1, l2, hl, hq⟩ := split_of_getElem? (List.getElem?_idxOf hn)
  have hnd := inv.idx.nodup
  have hlen := inv.nqubit
  rw [hl] at hnd hlen
  have hqlt : l1.length < st.sv.nqubit := by rw [← hlen]; simp
  have hn1 : n ∉ l1 := fun hc => (List.nodup_append.1 hnd).2.2 n hc n (by simp) rfl
  have herase : st.idx.list.erase n = l1 ++ l2 := by
    rw [hl, List.erase_append_right _ hn1]; simp
  obtain ⟨r0, hr0⟩ := exists_agrees st.results
  obtain ⟨m', hm', -⟩ := describe_spec hr0 m s t hsd htd
  have hd : ∀ r, Agrees st.results r → ∀ o n ψ, PhaseEq (projOut n (measVec m' o) ψ)
      (projOut n (measVec m o) (op1 (powB Ops.X (parity r s)) n (op1 (powB Ops.Z (parity r t)) n ψ))) := by
    intro r hr
    obtain ⟨m'', hm'', h⟩ := describe_spec hr m s t hsd htd
    rw [hm'] at hm''
    obtain rfl := Except.ok.inj hm''
    exact h
  set P : Bool → ℝ := fun o => projProb st.sv.psi (measVec m' o) st.sv.nqubit l1.length with hP
  have hsum : P false + P true = 1 := by
    rw [hP]; simp only []
    rw [projProb_complete _ hqlt, inv.norm]
    rw [outer_measVec, outer_measVec]
    exact (C42_projective m').2.2.2.1
  have hP0 : ∀ o, 0 ≤ P o := fun o => projProb_nonneg _ _ _ _
  have hPo : ∀ o : Bool, P o = if o then 1 - P false else P false := by
    intro o; cases o
    · simp
    · simp; linarith
  have memlive : ∀ k, k ∈ l1 ++ n :: l2 ↔ k ∈ liveList inputs pre := by
    intro k; rw [mem_liveList, ← inv.live, hl]
  have memlive' : ∀ k, k ∈ l1 ++ l2 ↔ k ∈ liveList inputs (pre ++ [.M n m s t]) := by
    intro k
    rw [mem_liveList, live_measure, ← mem_liveList, ← memlive, ← herase, inv.idx.nodup.mem_erase_iff, hl]
    tauto
  have hnd' : (l1 ++ l2).Nodup := hnd.sublist (by simp)
  have hprob : ∀ r, Agrees st.results r → branchProb inputs ψ₀ (pre ++ [.M n m s t]) r =
        P (r n) * branchProb inputs ψ₀ pre r := by
    intro r hr
    have := measure_prob inv hl hr (hd r hr)
    unfold branchProb
    rw [← stateNormSq_mem hnd (nodup_liveList _ _) memlive, ← stateNormSq_mem hnd' (nodup_liveList _ _) memlive', this]
  refine ⟨P false, hP0 false, by have := hP0 true; linarith, fun r hr => by rw [hprob r hr, hPo], ?_⟩
  have hexp : st.sv.expectationSingle (env.ordExp k st.sv.nqubit l1.length) (measureOperator m' false) l1.length
      = .ok ((P false : ℝ) : ℂ) := by
    rw [← outer_measVec]
    exact C41_expectation _ _ _ _ hqlt (henv.exp _ _ _)
  -- the code up to the selector
  have hmeas : ∀ x, st.measureNode env k n m' = x ↔ (do
      let outcome ← env.sel st.results n (P false)
      let sv ← st.sv.projectQubit (env.ordProj k st.sv.nqubit l1.length) (measureOperator m' outcome) l1.length
      let idx ← st.idx.remove n
      return ({ st with sv := sv, idx := idx }, outcome)) = x := by
    intro x
    unfold SimState.measureNode
    rw [hidx]
    simp only [bind, Except.bind, ← hq, hexp, Complex.ofReal_im, Complex.ofReal_re, ne_eq, not_true_eq_false,
      if_false, pure, Except.pure]
  have hstep : st.step env k (.M n m s t) = (do
      let x ← st.measureNode env k n m'
      return { x.1 with results := x.1.results.set n x.2 }) := by
    simp only [SimState.step, hm', bind, Except.bind]
  cases hsel : env.sel st.results n (P false) with
  | error e =>
    left
    refine ⟨e, rfl, ?_⟩
    have h1 : st.measureNode env k n m' = .error e := by rw [hmeas, hsel]; rfl
    rw [hstep, h1]; rfl
  | ok o =>
    right
    refine ⟨o, rfl, ?_⟩
    rw [← hPo]
    have hproj := C41_project (env.ordProj k st.sv.nqubit l1.length) st.sv (measVec m' o) (measVec_unit m' o)
      l1 l2 n hnd hlen (henv.proj _ _ _)
    rw [outer_measVec] at hproj
    rcases hproj with ⟨h1, h2⟩ | ⟨sv', c', h1, hc', hnq, hmq, habs, hnorm⟩
    · left
      refine ⟨?_, h2⟩
      have h3 : st.measureNode env k n m' = .error .runtimeError := by rw [hmeas, hsel]; simp only [bind, Except.bind, h1]
      rw [hstep, h3]; rfl
    · right
      obtain ⟨idx', hi1, hi2, hi3⟩ := inv.idx.remove hn
      rw [herase] at hi3
      refine ⟨⟨sv', idx', st.results.set n o⟩, ?_, ?_, rfl, ?_⟩
      · have h3 : st.measureNode env k n m' = .ok (⟨sv', idx', st.results⟩, o) := by
          rw [hmeas, hsel]; simp only [bind, Except.bind, h1, hi1]; rfl
        rw [hstep, h3]; rfl
      · refine ⟨hi2, fun j => ?_, fun j => ?_, ?_, ?_, hnorm, fun r hr => ?_⟩
        · rw [hi3, memlive', mem_liveList]
        · rw [PyDict.get?_set]
          simp only [measuredIn_append, Command.measured?, List.filterMap_cons, List.filterMap_nil,
            List.mem_append, List.mem_singleton]
          by_cases hj : n = j
          · subst hj; simp
          · rw [if_neg hj, inv.results]
            simp [Ne.symm hj]
        · have := inv.wf
          unfold Statevector.Wf at this ⊢
          simp only [hnq, hmq]; omega
        · simp only [hi3, hnq, ← hlen]; simp
        · have hr' : Agrees st.results r := by
            intro j o' hj
            apply hr j o'
            simp only []
            rw [PyDict.get?_set, if_neg, hj]
            rintro rfl
            exact hnm ((inv.results n).1 ⟨o', hj⟩)
          have hrn : r n = o := hr n o (PyDict.get?_set_self _ _ _)
          obtain ⟨c, hc, hsem⟩ := inv.sem r hr'
          rw [hl] at hsem
          obtain ⟨d, hd1, hd2⟩ := hd r hr' o n (absState (l1 ++ n :: l2) st.sv.psi)
          have hd0 : d ≠ 0 := by rintro rfl; simp at hd1
          refine ⟨c' * d * c, by simp [hc', hd0, hc], ?_⟩
          simp only [hi3]
          rw [habs, hd2, hsem, semCmds_append, semCmds_cons, semCmds_nil, op1_smul, op1_smul, projOut_smul,
            smul_smul, smul_smul]
          simp only [Command.sem, hrn, mul_assoc]
      · have h4 : (0 : ℝ) < normSq sv'.nqubit sv'.psi := by rw [hnorm]; norm_num
        by_contra hcon
        have h5 : P o = 0 := le_antisymm (not_lt.1 hcon) (hP0 o)
        have h6 : stateNormSq (l1 ++ l2) (absState (l1 ++ l2) sv'.psi) = 1 := by
          rw [stateNormSq_abs _ hnd', ← hnorm]
          congr 1; rw [hnq, ← hlen]; simp
        rw [habs, stateNormSq_smul, ← abs_proj hnd, stateNormSq_abs _ hnd'] at h6
        have h7 : normSq (l1 ++ l2).length (projAmp st.sv.psi (measVec m' o) (l1 ++ n :: l2).length l1.length) = P o := by
          rw [hP]; simp only []
          unfold projProb
          rw [hlen, show (l1 ++ l2).length = st.sv.nqubit - 1 by rw [← hlen]; simp]
        rw [h7, h5] at h6
        simp at h6


/-- A command that neither prepares nor measures keeps the live nodes and the outcomes. -/
theorem live_other {inputs : List ℕ} {pre : List Command} {c : Command} (h1 : c.prepared? = none)
    (h2 : c.measured? = none) (k : ℕ) :
    (Live inputs (pre ++ [c]) k ↔ Live inputs pre k) ∧ (k ∈ measuredIn (pre ++ [c]) ↔ k ∈ measuredIn pre) := by
  simp [Live, introduced_append, measuredIn_append, h1, h2]

theorem SimInv.unitary {inputs : List ℕ} {ψ₀ : QState} {pre : List Command} {st : SimState}
    (inv : SimInv inputs ψ₀ pre st) {c : Command} (h1 : c.prepared? = none) (h2 : c.measured? = none)
    (sv' : Statevector) (hnq : sv'.nqubit = st.sv.nqubit) (hmq : sv'.maxQubits = st.sv.maxQubits)
    (hnorm : normSq st.sv.nqubit sv'.psi = normSq st.sv.nqubit st.sv.psi)
    (hsem : ∀ r, Agrees st.results r → absState st.idx.list sv'.psi = c.sem r (absState st.idx.list st.sv.psi)) :
    SimInv inputs ψ₀ (pre ++ [c]) { st with sv := sv' } := by
  refine ⟨inv.idx, fun n => ?_, fun n => ?_, ?_, ?_, ?_, fun r hr => ?_⟩
  · rw [inv.live, (live_other h1 h2 n).1]
  · rw [inv.results, (live_other (inputs := inputs) h1 h2 n).2]
  · have := inv.wf
    unfold Statevector.Wf at this ⊢
    simp only [hnq, hmq]; exact this
  · simp only [hnq]; exact inv.nqubit
  · simp only [hnq]; rw [hnorm]; exact inv.norm
  · obtain ⟨k, hk, h⟩ := inv.sem r hr
    refine ⟨k, hk, ?_⟩
    simp only []
    rw [hsem r hr, h, semCmds_append, semCmds_cons, semCmds_nil, c.sem_homog]

theorem applySingle_ok {inputs : List ℕ} {ψ₀ : QState} {pre : List Command} {st : SimState} {env : SimEnv}
    {seq : List Command} (henv : env.Ok seq) (inv : SimInv inputs ψ₀ pre st) (k : ℕ) {n : ℕ}
    (hn : Live inputs pre n) (U : Mat2) (hU : U.conjTranspose * U = 1) :
    ∃ sv', st.applySingle env k n U = .ok { st with sv := sv' } ∧ sv'.nqubit = st.sv.nqubit ∧
      sv'.maxQubits = st.sv.maxQubits ∧ normSq st.sv.nqubit sv'.psi = normSq st.sv.nqubit st.sv.psi ∧
      absState st.idx.list sv'.psi = op1 U n (absState st.idx.list st.sv.psi) := by
  have hmem := (inv.live n).2 hn
  obtain ⟨sv', h1, h2, h3, h4, h5, -⟩ := C41_evolve_single (env.ordOp k st.sv.nqubit (st.idx.list.idxOf n))
    st.sv U st.idx.list inv.idx.nodup inv.nqubit _ n (List.getElem?_idxOf hmem) (henv.op _ _ _)
  refine ⟨sv', ?_, h2, h3, h5 hU, h4⟩
  unfold SimState.applySingle
  rw [inv.idx.index_ok hmem]
  simp only [bind, Except.bind, h1]
  rfl

theorem opsX_unitary : Ops.X.conjTranspose * Ops.X = 1 := by
  rw [← Clifford.matrix_X]; exact Clifford.matrix_unitary _

theorem opsZ_unitary : Ops.Z.conjTranspose * Ops.Z = 1 := by
  rw [← Clifford.matrix_Z]; exact Clifford.matrix_unitary _

/-- Commands other than measurements always succeed. -/
theorem step_other {inputs : List ℕ} {ψ₀ : QState} {pre post : List Command} {st : SimState} {env : SimEnv}
    {c : Command} (henv : env.Ok (pre ++ c :: post)) (inv : SimInv inputs ψ₀ pre st)
    (hsub : ∀ n ∈ measuredIn pre, n ∈ introduced inputs pre)
    (hal : Allowed inputs pre c) (hm : c.measured? = none) (hS : ∀ n d, c ≠ .S n d) :
    ∃ st', st.step env pre.length c = .ok st' ∧ SimInv inputs ψ₀ (pre ++ [c]) st' ∧ st'.results = st.results := by
  obtain ⟨r0, hr0⟩ := exists_agrees st.results
  have pauli : ∀ (n : ℕ) (d : Finset ℕ) (U : Mat2), U.conjTranspose * U = 1 → Live inputs pre n →
      (∀ k ∈ d, k ∈ measuredIn pre) → ∀ c : Command, c.prepared? = none → c.measured? = none →
      (∀ r ψ, c.sem r ψ = op1 (powB U (parity r d)) n ψ) →
      st.step env pre.length c = (do
        if ← SimState.checkDomain st.results d then st.applySingle env pre.length n U else return st) →
      ∃ st', st.step env pre.length c = .ok st' ∧ SimInv inputs ψ₀ (pre ++ [c]) st' ∧ st'.results = st.results := by
    intro n d U hU hn hd c h1 h2 hsem hstep
    have hdd : ∀ j ∈ d, ∃ o, st.results.get? j = some o := fun j hj => (inv.results j).2 (hd j hj)
    obtain ⟨s, hs, hpar⟩ := sumResults_parity hr0 d hdd
    have hpar' : ∀ r, Agrees st.results r → parity r d = parity r0 d := by
      intro r hr
      apply parity_congr
      intro j hj
      obtain ⟨o, ho⟩ := hdd j hj
      rw [hr j o ho, hr0 j o ho]
    have hcheck : SimState.checkDomain st.results d = .ok (parity r0 d) := by
      unfold SimState.checkDomain; rw [hs, ← hpar]; rfl
    rw [hstep, hcheck]
    cases hp : parity r0 d with
    | true =>
      obtain ⟨sv', e1, e2, e3, e4, e5⟩ := applySingle_ok henv inv pre.length hn U hU
      refine ⟨_, e1, inv.unitary h1 h2 sv' e2 e3 e4 (fun r hr => ?_), rfl⟩
      rw [hsem, hpar' r hr, hp, e5]; rfl
    | false =>
      refine ⟨st, rfl, inv.unitary h1 h2 st.sv rfl rfl rfl (fun r hr => ?_), rfl⟩
      rw [hsem, hpar' r hr, hp]
      simp only [powB, Bool.false_eq_true, if_false, op1_one]
  cases c with
  | M n m s t => simp [Command.measured?] at hm
  | S n d => exact absurd rfl (hS n d)
  | T =>
    refine ⟨st, rfl, inv.unitary rfl rfl st.sv rfl rfl rfl (fun r _ => rfl), rfl⟩
  | C n c =>
    obtain ⟨sv', e1, e2, e3, e4, e5⟩ := applySingle_ok henv inv pre.length hal c.matrix (Clifford.matrix_unitary c)
    exact ⟨_, e1, inv.unitary rfl rfl sv' e2 e3 e4 (fun r hr => by rw [e5]; rfl), rfl⟩
  | X n d => exact pauli n d Ops.X opsX_unitary hal.1 hal.2 _ rfl rfl (fun r ψ => rfl) rfl
  | Z n d => exact pauli n d Ops.Z opsZ_unitary hal.1 hal.2 _ rfl rfl (fun r ψ => rfl) rfl
  | E u v =>
    have hu := (inv.live u).2 hal.1
    have hv := (inv.live v).2 hal.2
    obtain ⟨sv', e1, e2, e3, e4, e5, -⟩ := C41_entangle (env.ordCz pre.length st.sv.nqubit) st.sv st.idx.list
      inv.nqubit _ _ u v (List.getElem?_idxOf hu) (List.getElem?_idxOf hv) (henv.cz _ _)
    refine ⟨{ st with sv := sv' }, ?_, inv.unitary rfl rfl sv' e2 e3 e5 (fun r _ => e4), rfl⟩
    simp only [SimState.step, SimState.entangleNodes, inv.idx.index_ok hu, inv.idx.index_ok hv, bind, Except.bind, e1]
    rfl
  | N n s =>
    have hfresh : n ∉ introduced inputs pre := hal
    have hnl : n ∉ st.idx.list := fun h => hfresh ((inv.live n).1 h).1
    have hnm : n ∉ measuredIn pre := fun h => hfresh (hsub n h)
    have hnd : (st.idx.list ++ [n]).Nodup := by
      rw [List.nodup_append]
      refine ⟨inv.idx.nodup, by simp, ?_⟩
      intro a ha b hb
      simp only [List.mem_singleton] at hb
      subst hb; rintro rfl; exact hnl ha
    have hplus : env.isPlus pre.length = true → s = PlanarState.plus := by
      intro h
      exact henv.plus pre.length n s (by simp) h
    obtain ⟨e1, e2, e3, e4⟩ := C41_add_node (env.junk pre.length) (env.isPlus pre.length) st.sv inv.wf s hplus
      st.idx.list inv.nqubit n
    refine ⟨_, rfl, ?_, rfl⟩
    refine ⟨inv.idx.extend hnd, fun k => ?_, fun k => ?_, e2, ?_, ?_, fun r hr => ?_⟩
    · simp only [SimState.addNode, NodeIndex.extend, Live, introduced_append, measuredIn_append, Command.prepared?,
        Command.measured?, List.filterMap_cons, List.filterMap_nil, List.append_nil, List.mem_append,
        List.mem_singleton]
      rw [inv.live]
      unfold Live
      constructor
      · rintro (h | rfl)
        · exact ⟨Or.inl h.1, h.2⟩
        · exact ⟨Or.inr rfl, hnm⟩
      · rintro ⟨h | rfl, h2⟩
        · exact Or.inl ⟨h, h2⟩
        · exact Or.inr rfl
    · simp only [SimState.addNode]
      rw [inv.results]
      simp [measuredIn_append, Command.measured?]
    · simp only [SimState.addNode, NodeIndex.extend, List.length_append, List.length_singleton, inv.nqubit, e1]
    · simp only [SimState.addNode, e1]; rw [e4]; exact inv.norm
    · obtain ⟨c, hc, h⟩ := inv.sem r hr
      refine ⟨c, hc, ?_⟩
      simp only [SimState.addNode, NodeIndex.extend]
      rw [e3, h, prep_smul, semCmds_append]; rfl

/-- How a run can fail: at some measurement, either the branch selector raised, or it chose an
outcome whose probability, given the previous outcomes, is at most `2e-10`. -/
def SelFails (env : SimEnv) (inputs : List ℕ) (ψ₀ : QState) (seq : List Command) (e : PyErr) : Prop :=
  ∃ pre n m s t post, seq = pre ++ Command.M n m s t :: post ∧ ∃ (results : PyDict ℕ Bool) (p0 : ℝ),
    0 ≤ p0 ∧ p0 ≤ 1 ∧ (∀ k, (∃ o, results.get? k = some o) ↔ k ∈ measuredIn pre) ∧
    (∀ r, Agrees results r → branchProb inputs ψ₀ (pre ++ [.M n m s t]) r =
        (if r n then 1 - p0 else p0) * branchProb inputs ψ₀ pre r) ∧
    (env.sel results n p0 = .error e ∨
      ∃ o, env.sel results n p0 = .ok o ∧ e = .runtimeError ∧ (if o then 1 - p0 else p0) ≤ 2 * atol)

theorem loop_spec {env : SimEnv} {inputs : List ℕ} {ψ₀ : QState} {seq : List Command} (henv : env.Ok seq)
    (hrun : Runnable inputs seq) (hS : ∀ n d, Command.S n d ∉ seq) :
    ∀ (post pre : List Command) (st : SimState), seq = pre ++ post → SimInv inputs ψ₀ pre st →
      (∃ st', SimState.loop env pre.length post st = .ok st' ∧ SimInv inputs ψ₀ seq st') ∨
      ∃ e, SimState.loop env pre.length post st = .error e ∧ SelFails env inputs ψ₀ seq e := by
  intro post
  induction post with
  | nil =>
    intro pre st hseq inv
    left
    rw [List.append_nil] at hseq
    subst hseq
    exact ⟨st, rfl, inv⟩
  | cons c post ih =>
    intro pre st hseq inv
    have hal := hrun pre c post hseq
    have hsub := (hseq ▸ hrun : Runnable inputs (pre ++ c :: post)).prefix.measured_sub
    have next : ∀ st', st.step env pre.length c = .ok st' → SimInv inputs ψ₀ (pre ++ [c]) st' →
        (∃ st', SimState.loop env pre.length (c :: post) st = .ok st' ∧ SimInv inputs ψ₀ seq st') ∨
        ∃ e, SimState.loop env pre.length (c :: post) st = .error e ∧ SelFails env inputs ψ₀ seq e := by
      intro st' h1 h2
      have := ih (pre ++ [c]) st' (by rw [hseq]; simp) h2
      simp only [List.length_append, List.length_singleton] at this
      simp only [SimState.loop, h1, bind, Except.bind]
      exact this
    cases hm : c.measured? with
    | none =>
      obtain ⟨st', h1, h2, -⟩ := step_other (hseq ▸ henv) inv hsub hal hm (fun n d h => hS n d (by
        rw [hseq, ← h]; simp))
      exact next st' h1 h2
    | some n =>
      cases c with
      | M n m s t =>
        obtain ⟨p0, hp0, hp1, hprob, h⟩ := step_measure henv inv pre.length n m s t hal
        rcases h with ⟨e, h1, h2⟩ | ⟨o, h1, ⟨h2, h3⟩ | ⟨st', h2, h3, -⟩⟩
        · right
          exact ⟨e, by simp only [SimState.loop, h2, bind, Except.bind], pre, n, m, s, t, post, hseq, st.results, p0,
            hp0, hp1, inv.results, hprob, Or.inl h1⟩
        · right
          exact ⟨.runtimeError, by simp only [SimState.loop, h2, bind, Except.bind], pre, n, m, s, t, post, hseq,
            st.results, p0, hp0, hp1, inv.results, hprob, Or.inr ⟨o, h1, rfl, h3⟩⟩
        · exact next st' h2 h3
      | _ => simp [Command.measured?] at hm

theorem indices_ok {idx : NodeIndex} (h : idx.Inv) : ∀ l : List ℕ, (∀ n ∈ l, n ∈ idx.list) →
    SimState.indices idx l = .ok (l.map (fun n => idx.list.idxOf n))
  | [], _ => rfl
  | n :: l, hl => by
    simp only [SimState.indices, h.index_ok (hl n (by simp)), indices_ok h l (fun k hk => hl k (by simp [hk])), bind,
      Except.bind, List.map_cons]
    rfl

/-! ### Input states (specification) -/

/-- A product state: node `inputs[k]` in state `states[k]`. -/
noncomputable def prodState : List ℕ → List PlanarState → QState
  | n :: inputs, s :: states => prep n s.vec (prodState inputs states)
  | _, _ => fun _ => 1

/-- The state of the input nodes described by the data: the same state on every input, one state per
input, or amplitudes (the first input being the most significant bit). -/
noncomputable def InputData.toState (inputs : List ℕ) : InputData → QState
  | .state s => prodState inputs (List.replicate inputs.length s)
  | .states l => prodState inputs l
  | .amplitudes l => fun b => l.getD (enc inputs b) 0

/-- Data that describe a normalised state of `n` qubits. -/
def InputData.Ok (n : ℕ) : InputData → Prop
  | .state _ => True
  | .states l => l.length = n
  | .amplitudes l => l.length = 2 ^ n ∧ (l.map Complex.normSq).sum = 1

theorem vec_normSq (s : PlanarState) : Complex.normSq (s.vec false) + Complex.normSq (s.vec true) = 1 := by
  have hu := planarState_unit s.plane s.angle
  unfold UnitVec at hu
  apply Complex.ofReal_injective
  push_cast
  simp only [Complex.normSq_eq_conj_mul_self]
  exact hu

theorem abs_kron : ∀ (inputs : List ℕ) (l : List PlanarState), l.length = inputs.length →
    absState inputs (kronStates l) = prodState inputs l
  | [], [], _ => rfl
  | n :: inputs, s :: l, h => by
    have ih := abs_kron inputs l (by simpa using h)
    have hl : l.length = inputs.length := by simpa using h
    funext b
    have hlt := enc_lt inputs b
    have hx : (b n).toNat ≤ 1 := Bool.toNat_le _
    have hdiv : ((b n).toNat * 2 ^ inputs.length + enc inputs b) / 2 ^ inputs.length = (b n).toNat := by
      rw [add_comm, Nat.add_mul_div_right _ _ (by positivity), Nat.div_eq_of_lt hlt, zero_add]
    have hmod : ((b n).toNat * 2 ^ inputs.length + enc inputs b) % 2 ^ inputs.length = enc inputs b := by
      rw [add_comm, Nat.add_mul_mod_self_right, Nat.mod_eq_of_lt hlt]
    simp only [absState, enc, kronStates, prodState, prep, hl, hdiv, hmod, ← ih]
    cases b n <;> simp
  | [], s :: l, h => by simp at h
  | n :: inputs, [], h => by simp at h

theorem normSq_kron : ∀ l : List PlanarState, normSq l.length (kronStates l) = 1
  | [] => by simp [normSq, kronStates]
  | s :: l => by
    have ih := normSq_kron l
    unfold normSq at ih ⊢
    rw [List.length_cons, pow_succ, mul_comm, sum_range_mul, Finset.sum_range_succ, Finset.sum_range_succ,
      Finset.sum_range_zero, zero_add]
    have e : ∀ x : Bool, ∑ j ∈ Finset.range (2 ^ l.length), Complex.normSq (kronStates (s :: l) (x.toNat * 2 ^ l.length + j)) =
        Complex.normSq (s.vec x) := by
      intro x
      rw [← mul_one (Complex.normSq (s.vec x)), ← ih, Finset.mul_sum]
      refine Finset.sum_congr rfl (fun j hj => ?_)
      rw [Finset.mem_range] at hj
      simp only [kronStates]
      rw [add_comm, Nat.add_mul_div_right _ _ (by positivity), Nat.div_eq_of_lt hj, Nat.add_mul_mod_self_right,
        Nat.mod_eq_of_lt hj, zero_add, Complex.normSq_mul]
      congr 3
      cases x <;> simp
    have e0 := e false
    have e1 := e true
    simp only [Bool.toNat_false, Bool.toNat_true] at e0 e1
    rw [e0, e1, vec_normSq]

theorem sum_getD (l : List ℂ) : ∑ i ∈ Finset.range l.length, Complex.normSq (l.getD i 0) = (l.map Complex.normSq).sum := by
  induction l with
  | nil => simp
  | cons a l ih => rw [List.length_cons, Finset.sum_range_succ', add_comm]; simp [← ih]

/-- **C10** Input data that do not fit the number of inputs are rejected with `ValueError`: a list of states of another length,
amplitudes whose number does not have the right integer logarithm, amplitudes that are not normalised. -/
theorem C10_init_rejects (n : ℕ) :
    (∀ l : List PlanarState, l.length ≠ n → Statevector.init (.states l) n = .error .valueError) ∧
    (∀ l : List ℂ, (l.length < 2 ^ n ∨ 2 ^ (n + 1) ≤ l.length) → l ≠ [] ∨ n ≠ 0 →
      Statevector.init (.amplitudes l) n = .error .valueError) ∧
    (∀ l : List ℂ, l ≠ [] → (l.map Complex.normSq).sum ≠ 1 → Statevector.init (.amplitudes l) n = .error .valueError) := by
  refine ⟨fun l h => ?_, fun l h h' => ?_, fun l h h' => ?_⟩
  · unfold Statevector.init; simp [h]
  · unfold Statevector.init
    by_cases hl : l = []
    · have : n ≠ 0 := by rcases h' with h' | h'; exacts [absurd hl h', h']
      simp [hl, this]
    · have hlog : Nat.log2 l.length ≠ n := by
        intro e
        have hpos : l.length ≠ 0 := by simpa using hl
        have h1 := Nat.log2_self_le hpos
        have h2 := (Nat.log2_lt hpos (k := n + 1)).1 (by omega)
        rw [e] at h1
        omega
      simp [hl, hlog]
  · unfold Statevector.init
    simp only [h, if_false, h', ne_eq, not_false_eq_true, if_true]
    split <;> rfl

/-- Valid data give the described state. -/
theorem init_ok (inputs : List ℕ) (data : InputData) (h : data.Ok inputs.length) :
    ∃ sv, Statevector.init data inputs.length = .ok sv ∧ sv.nqubit = inputs.length ∧
      absState inputs sv.psi = data.toState inputs ∧ normSq inputs.length sv.psi = 1 := by
  cases data with
  | state s =>
    refine ⟨_, rfl, rfl, abs_kron inputs _ (by simp), ?_⟩
    have := normSq_kron (List.replicate inputs.length s)
    rwa [List.length_replicate] at this
  | states l =>
    have hl : l.length = inputs.length := h
    refine ⟨⟨kronStates l, inputs.length, inputs.length⟩, ?_, rfl, abs_kron inputs l hl, ?_⟩
    · simp [Statevector.init, hl]
    · simp only []; rw [← hl]; exact normSq_kron l
  | amplitudes l =>
    obtain ⟨h1, h2⟩ := h
    have hne : l ≠ [] := by
      rintro rfl
      have : 0 < 2 ^ inputs.length := by positivity
      simp only [List.length_nil] at h1
      omega
    refine ⟨⟨fun i => l.getD i 0, inputs.length, inputs.length⟩, ?_, rfl, rfl, ?_⟩
    · simp [Statevector.init, hne, h1, h2, Nat.log2_two_pow]
    · unfold normSq
      rw [← h1, sum_getD, h2]

/-- The state of the simulation when the loop starts. -/
theorem start_ok (junk : ℕ → Buf) (p : Pattern) (hi : p.inputs.Nodup) (data : InputData) (plusObj : Bool)
    (hd : data.Ok p.inputs.length) (hplus : plusObj = true → data = .state PlanarState.plus) :
    ∃ sv, prepareInput p data plusObj junk = .ok sv ∧
      SimInv p.inputs (data.toState p.inputs) [] ⟨sv, NodeIndex.clear.extend p.inputs, []⟩ := by
  have hidx : (NodeIndex.clear.extend p.inputs).Inv := NodeIndex.Inv.clear.extend (by simpa [NodeIndex.clear] using hi)
  have hlist : (NodeIndex.clear.extend p.inputs).list = p.inputs := by simp [NodeIndex.clear, NodeIndex.extend]
  have hwf0 : (Statevector.mk (fun _ => 1) 0 0).Wf := le_refl _
  obtain ⟨i1, -, i3, i4⟩ := Statevector.ensureCapacity_spec (junk 0) _ hwf0 p.maxSpace.toNat
  set sv0 := initialBackend (junk 0) p.maxSpace.toNat with hsv0
  have j1 : sv0.nqubit = 0 := i1
  have j2 : sv0.Wf := by unfold Statevector.Wf; rw [j1]; omega
  have j4 : sv0.psi 0 = 1 := i4 0 (by norm_num)
  have habs0 : absState [] sv0.psi = fun _ => 1 := by funext b; simp [absState, enc, j4]
  have hn0 : normSq 0 sv0.psi = 1 := by simp [normSq, j4]
  have fin : ∀ sv : Statevector, sv.Wf → sv.nqubit = p.inputs.length → normSq sv.nqubit sv.psi = 1 →
      absState p.inputs sv.psi = data.toState p.inputs →
      SimInv p.inputs (data.toState p.inputs) [] ⟨sv, NodeIndex.clear.extend p.inputs, []⟩ := by
    intro sv h1 h2 h3 h4
    refine ⟨hidx, fun n => ?_, fun n => ?_, h1, ?_, h3, fun r _ => ⟨1, one_ne_zero, ?_⟩⟩
    · rw [hlist]; simp [Live, introduced, measuredIn]
    · simp [measuredIn]
    · simp only [hlist, h2]
    · simp only [hlist]; rw [h4, semCmds_nil, one_smul]
  unfold prepareInput
  simp only [← hsv0]
  by_cases hc : p.inputs.length = 1 ∧ plusObj = true
  · rw [if_pos hc]
    refine ⟨_, rfl, ?_⟩
    obtain ⟨n, hn⟩ := List.length_eq_one_iff.1 hc.1
    obtain ⟨e1, e2, e3, e4⟩ := C41_add_node (junk 1) true sv0 j2 PlanarState.plus (fun _ => rfl) [] (by simp [j1]) n
    rw [j1] at e1 e4
    refine fin _ e2 (by rw [e1, hn]; rfl) (by rw [e1, e4, hn0]) ?_
    rw [hn, show ([n] : List ℕ) = [] ++ [n] from rfl, e3, habs0, hplus hc.2]
    rfl
  · rw [if_neg hc]
    obtain ⟨other, o1, o2, o3, o4⟩ := init_ok p.inputs data hd
    obtain ⟨e1, e2, e3, e4⟩ := C41_tensor (junk 1) sv0 other j2 [] p.inputs (by simp [j1]) o2.symm
    refine ⟨sv0.tensor (junk 1) other, by rw [o1]; rfl, ?_⟩
    rw [j1, zero_add] at e1 e4
    refine fin _ e2 (by rw [e1, o2]) (by rw [e1, e4, hn0, o2, o4, one_mul]) ?_
    rw [List.nil_append] at e3
    rw [e3, habs0, o3]
    funext b; simp

/-- **C10** On a pattern for which `check_runnability` succeeds (no `S` command; outputs = unmeasured
nodes, see `C08_outputs`) and for every branch selector, every scheduling of the parallel kernels and
every contents of uninitialised memory, the simulation on a normalised input either

* reaches the end: the live nodes, in order, are the output nodes, every measured node has an outcome,
  and the state is normalised and proportional to the state that the textbook semantics gives to the
  branch of the recorded outcomes — which therefore has non-zero probability; or
* stops at a measurement because the branch selector raised, or because it chose an outcome whose
  probability given the previous outcomes is at most `2e-10` (`RuntimeError`).

There is no other failure: in particular no missing node, no missing outcome, no bad permutation. -/
theorem C10_run (env : SimEnv) (p : Pattern) (henv : env.Ok p.seq) (hp : p.OutputsOk)
    (hrun : p.checkRunnability = .ok ()) (hS : ∀ n d, Command.S n d ∉ p.seq) (data : InputData) (plusObj : Bool)
    (hd : data.Ok p.inputs.length) (hplus : plusObj = true → data = .state PlanarState.plus) (junk : ℕ → Buf) :
    (∃ st, simulate env p data plusObj junk = .ok st ∧ st.idx.list = p.outputs ∧ st.idx.Inv ∧
      st.sv.nqubit = p.outputs.length ∧
      (∀ n, (∃ o, st.results.get? n = some o) ↔ n ∈ measuredIn p.seq) ∧
      ∀ r, Agrees st.results r →
        0 < branchProb p.inputs (data.toState p.inputs) p.seq r ∧
        stateNormSq p.outputs (absState p.outputs st.sv.psi) = 1 ∧
        ∃ c : ℂ, absState p.outputs st.sv.psi = c • semCmds r p.seq (data.toState p.inputs)) ∨
    ∃ e, simulate env p data plusObj junk = .error e ∧
      SelFails env p.inputs (data.toState p.inputs) p.seq e := by
  have hR := (checkRunnability_iff p).1 hrun
  obtain ⟨sv, hsv, hinv⟩ := start_ok junk p hp.inputs_nodup data plusObj hd hplus
  have hsim : simulate env p data plusObj junk = (do
      let st ← SimState.loop env 0 p.seq ⟨sv, NodeIndex.clear.extend p.inputs, []⟩
      st.finalize p.outputs) := by
    unfold simulate
    simp only []
    rw [hsv, hrun]
    rfl
  rcases loop_spec henv hR hS p.seq [] _ rfl hinv with ⟨st, h1, h2⟩ | ⟨e, h1, h2⟩
  · left
    have hmem : ∀ n, n ∈ p.outputs ↔ n ∈ st.idx.list := fun n => by rw [hp.outputs, h2.live]
    have hperm : p.outputs.Perm st.idx.list :=
      (List.perm_ext_iff_of_nodup hp.outputs_nodup h2.idx.nodup).2 hmem
    obtain ⟨sv', e1, e2, e3⟩ := C41_permute st.sv st.idx.list p.outputs h2.idx.nodup h2.nqubit hperm
    have hlist : (NodeIndex.clear.extend p.outputs).list = p.outputs := by simp [NodeIndex.clear, NodeIndex.extend]
    refine ⟨⟨sv', NodeIndex.clear.extend p.outputs, st.results⟩, ?_, hlist,
      NodeIndex.Inv.clear.extend (by simpa [NodeIndex.clear] using hp.outputs_nodup), ?_, h2.results, fun r hr => ?_⟩
    · rw [hsim]
      simp only [List.length_nil] at h1
      simp only [h1, bind, Except.bind, SimState.finalize, indices_ok h2.idx p.outputs (fun n hn => (hmem n).1 hn), e1]
      rfl
    · rw [e2, ← h2.nqubit, hperm.length_eq]
    · obtain ⟨c, hc, hsem⟩ := h2.sem r hr
      have hnorm : stateNormSq p.outputs (absState p.outputs sv'.psi) = 1 := by
        rw [e3, stateNormSq_perm hperm, stateNormSq_abs _ h2.idx.nodup, h2.nqubit, h2.norm]
      refine ⟨?_, hnorm, c, by simp only []; rw [e3, hsem]⟩
      rw [e3, hsem, stateNormSq_smul] at hnorm
      have hb : branchProb p.inputs (data.toState p.inputs) p.seq r =
          stateNormSq p.outputs (semCmds r p.seq (data.toState p.inputs)) := by
        unfold branchProb
        apply stateNormSq_mem (nodup_liveList _ _) hp.outputs_nodup
        intro n; rw [mem_liveList, hp.outputs]
      rw [hb]
      have h0 : 0 ≤ stateNormSq p.outputs (semCmds r p.seq (data.toState p.inputs)) :=
        Finset.sum_nonneg (fun _ _ => Complex.normSq_nonneg _)
      rcases h0.lt_or_eq with h | h
      · exact h
      · rw [← h] at hnorm; simp at hnorm
  · right
    refine ⟨e, ?_, h2⟩
    rw [hsim]
    simp only [List.length_nil] at h1
    simp only [h1, bind, Except.bind]

/-- **C10** If the branch selector always answers, with an outcome whose probability exceeds `2e-10`
(at least one of the two outcomes has probability at least one half), then every runnable pattern runs
to its end. -/
theorem C10_no_failure (env : SimEnv) (p : Pattern) (henv : env.Ok p.seq) (hp : p.OutputsOk)
    (hrun : p.checkRunnability = .ok ()) (hS : ∀ n d, Command.S n d ∉ p.seq) (data : InputData) (plusObj : Bool)
    (hd : data.Ok p.inputs.length) (hplus : plusObj = true → data = .state PlanarState.plus) (junk : ℕ → Buf)
    (hsel : ∀ results n p0, 0 ≤ p0 → p0 ≤ 1 →
      ∃ o, env.sel results n p0 = .ok o ∧ 2 * atol < (if o then 1 - p0 else p0)) :
    ∃ st, simulate env p data plusObj junk = .ok st ∧ st.idx.list = p.outputs := by
  rcases C10_run env p henv hp hrun hS data plusObj hd hplus junk with ⟨st, h1, h2, -⟩ | ⟨e, -, h⟩
  · exact ⟨st, h1, h2⟩
  · obtain ⟨pre, n, m, s, t, post, -, results, p0, h0, h1, -, -, h | ⟨o, h2, -, h3⟩⟩ := h
    · obtain ⟨o, ho, -⟩ := hsel results n p0 h0 h1
      rw [ho] at h; cases h
    · obtain ⟨o', ho, hlt⟩ := hsel results n p0 h0 h1
      rw [h2] at ho
      obtain rfl := Except.ok.inj ho
      exact absurd h3 (not_le.2 hlt)

/-- **C10** A pattern containing an `S` command is rejected by the simulator (`ValueError`) when the
command is reached. -/
theorem C10_signal_rejected (env : SimEnv) (k n : ℕ) (d : Finset ℕ) (st : SimState) :
    st.step env k (.S n d) = .error .valueError := rfl

/-- Non-trivial instance: the pattern of `exampleSeq` on a single input, kernels run backwards, the
most likely outcome chosen. -/
noncomputable def exampleEnv : SimEnv where
  junk := fun _ _ => 42
  isPlus := fun _ => true
  ordCz := fun _ n => (List.range (2 ^ n)).reverse
  ordOp := fun _ n q => some (blockPairs n q).reverse
  ordExp := fun _ n q => blockPairs n q
  ordProj := fun _ n q => (blockPairs n q).reverse
  sel := fun _ _ p0 => .ok (decide (p0 < 1 / 2))

theorem exampleEnv_ok : exampleEnv.Ok exampleSeq where
  plus := by
    intro k n s h _
    have h := List.mem_of_getElem? h
    simp only [exampleSeq, List.mem_cons, List.not_mem_nil, Command.N.injEq, reduceCtorEq, or_false, false_or] at h
    rcases h with h | h <;> exact h.2
  cz := fun _ _ => List.reverse_perm _
  op := fun _ _ _ o h => by obtain rfl := Option.some.inj h; exact List.reverse_perm _
  exp := fun _ _ _ => List.Perm.refl _
  proj := fun _ _ _ => List.reverse_perm _

example : ∃ st, simulate exampleEnv ((Pattern.empty [0]).extend exampleSeq) (.state PlanarState.plus) true
    (fun _ _ => 7) = .ok st ∧ st.idx.list = [2] := by
  have e := C08_count [0] exampleSeq
  have ho := C08_outputs [0] (by simp) _ exampleSeq_runnable
  have hout : ((Pattern.empty [0]).extend exampleSeq).outputs = [2] := by rw [ho]; rfl
  have hok : ((Pattern.empty [0]).extend exampleSeq).OutputsOk := by
    refine ⟨by rw [e.2.1]; simp, by rw [hout]; simp, fun n => ?_⟩
    rw [ho, e.1, e.2.1]; simp [Live]
  have := C10_no_failure exampleEnv ((Pattern.empty [0]).extend exampleSeq) (by rw [e.1]; exact exampleEnv_ok) hok
    ((checkRunnability_iff _).2 (by rw [e.1, e.2.1]; exact exampleSeq_runnable))
    (by rw [e.1]; intro n d; simp [exampleSeq]) (.state PlanarState.plus) true trivial (fun _ => rfl) (fun _ _ => 7)
    (by
      intro _ _ p0 h0 h1
      refine ⟨_, rfl, ?_⟩
      unfold atol
      by_cases h : p0 < 1 / 2
      · simp only [h, decide_true, if_true]; norm_num at h ⊢; linarith
      · simp only [h, decide_false, Bool.false_eq_true, if_false]; norm_num at h ⊢; linarith)
  rw [hout] at this
  exact this

end Graphix
