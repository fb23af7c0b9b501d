import Verif.Props.TensorNetAgree

/-!
# Property C63: errors and disagreements of the tensor-network backend
-/

namespace Graphix

open Function StdPattern TensorNet Pattern
open scoped symmDiff

/-! ### Errors -/

/-- **C63** What is refused: a mode that does not exist (`ValueError`), the parallel preparation of a pattern that is not in standard form (`ValueError`),
and, when the backend can be built, an input that is not `|+⟩`, or a node added in another state (`NotImplementedError`). -/
theorem C63_refused (env : TnEnv) (p : Pattern) (data : Option InputData) :
    tnSimulate env p .other data = .error .valueError ∧
    (p.isStandard false = false → tnSimulate env p .parallel data = .error .valueError ∧ tnSimulate env p .opt data = .error .valueError) ∧
    (∀ mode st d, tnInit env p mode = .ok st → d ≠ .state PlanarState.plus → tnSimulate env p mode (some d) = .error .notImplementedError) ∧
    ∀ (st : TnState) n s, s ≠ PlanarState.plus → st.step env (.N n s) = .error .notImplementedError := by
  refine ⟨rfl, fun h => ⟨?_, ?_⟩, fun mode st d h hd => ?_, fun st n s hs => ?_⟩
  · unfold tnSimulate tnInit
    simp only [h, bind, Except.bind, Bool.not_false, if_true, throw, throwThe, MonadExceptOf.throw]
  · unfold tnSimulate tnInit
    simp only [h, bind, Except.bind, Bool.not_false, if_true, throw, throwThe, MonadExceptOf.throw]
  · unfold tnSimulate
    simp only [h, bind, Except.bind, ne_eq, hd, not_false_eq_true, if_true]
  · simp only [TnState.step, TnState.addNode, ne_eq, hs, not_false_eq_true, if_true]

/-- **C63** A pattern that prepares a state that is not `|+⟩` is refused, whatever the mode. -/
theorem C63_preparation_refused (env : TnEnv) (p : Pattern) (n : ℕ) (s : PlanarState) (hs : s ≠ PlanarState.plus) (hn : Command.N n s ∈ p.seq)
    (mode : GraphPrepMode) (data : Option InputData) : ∃ e, tnSimulate env p mode data = .error e := by
  have hog : ∃ e, p.toOpenGraph env.enum = .error e := by
    unfold Pattern.toOpenGraph
    cases h : StdPattern.fromPattern p with
    | error e => exact ⟨e, rfl⟩
    | ok sp =>
      refine ⟨.valueError, ?_⟩
      simp only [bind, Except.bind]
      obtain ⟨-, hrun, -, -⟩ := fromPattern_ok h
      obtain ⟨f1, -⟩ := StdBody.run_fields hrun
      unfold StdPattern.toOpenGraph
      rw [if_pos]
      refine ⟨(n, s), ?_, hs⟩
      rw [f1]
      simp only [StdBody.init, List.nil_append, List.mem_filterMap]
      exact ⟨_, hn, rfl⟩
  obtain ⟨e, he⟩ := hog
  have h1 : p.isolatedNodes env.enum = .error e := by simp only [Pattern.isolatedNodes, he, bind, Except.bind]
  have h2 : p.maxDegree env.enum = .error e := by simp only [Pattern.maxDegree, he, bind, Except.bind]
  have h3 : ∃ e, tnInit env p mode = .error e := by
    unfold tnInit
    cases mode with
    | parallel =>
      cases hst : p.isStandard false with
      | true => exact ⟨e, by simp only [bind, Except.bind, he, Bool.not_true, Bool.false_eq_true, if_false, if_true]⟩
      | false => exact ⟨.valueError, by simp only [bind, Except.bind, Bool.not_false, if_true, throw, throwThe, MonadExceptOf.throw]⟩
    | opt =>
      cases hst : p.isStandard false with
      | true => exact ⟨e, by simp only [bind, Except.bind, he, Bool.not_true, Bool.false_eq_true, if_false, if_true]⟩
      | false => exact ⟨.valueError, by simp only [bind, Except.bind, Bool.not_false, if_true, throw, throwThe, MonadExceptOf.throw]⟩
    | sequential => exact ⟨e, by simp only [bind, Except.bind, h1, Bool.false_eq_true, if_false, pure, Except.pure]⟩
    | auto => exact ⟨e, by simp only [bind, Except.bind, h2]⟩
    | other => exact ⟨.valueError, rfl⟩
  obtain ⟨e', he'⟩ := h3
  exact ⟨e', by simp only [tnSimulate, he', bind, Except.bind]⟩

/-- **C63** `copy()` loses the default output nodes: `to_statevector()`, `basis_coefficient()` and `evolve()` of the copy raise `ValueError`. With the
nodes given explicitly, the copy has the amplitudes of the original. -/
theorem C63_copy (tn : TensorNet) :
    tn.copy.toStatevector = .error .valueError ∧ (∀ k, tn.copy.rawCoefficient k = .error .valueError) ∧ tn.copy.norm = tn.norm ∧
      ∀ k l, tn.copy.rawCoefficient k (some l) = tn.rawCoefficient k (some l) := by
  refine ⟨rfl, fun k => rfl, rfl, fun k l => ?_⟩
  have hb : ∀ (l : List ℕ) (k : ℕ), tn.copy.basisTensors l k = tn.basisTensors l k := by
    intro l
    induction l with
    | nil => intro k; rfl
    | cons n l ih =>
      intro k
      simp only [TensorNet.basisTensors, ih]
      rfl
  simp only [TensorNet.rawCoefficient, TensorNet.indicesOr, bind, Except.bind, hb]
  rfl

/-! ### Examples -/

/-- A factorisation of CZ, a selector that gives the outcome 1 to the nodes of a set. -/
noncomputable def exTnEnv (ones : Finset ℕ) : TnEnv where
  sel := fun _ n _ => .ok (decide (n ∈ ones))
  selAgain := fun _ _ _ => .ok true
  cz1 := fun x x' k => if x = x' ∧ x = k then 1 else 0
  cz2 := fun k y y' => if y = y' then (if k && y then -1 else 1) else 0
  enum := exEnum
  nodeOrd := fun s => s.toList

theorem exTnEnv_ok (ones : Finset ℕ) : (exTnEnv ones).Ok where
  enum := exEnum_valid
  nodeOrd := fun s => ⟨s.nodup_toList, fun n => s.mem_toList⟩
  cz := by
    intro x x' y y'
    cases x <;> cases x' <;> cases y <;> cases y' <;> simp [exTnEnv]

theorem stdExample_noSignal : ∀ n d, Command.S n d ∉ stdExample.seq := by
  intro n d h
  have : stdExample.seq = [.N 1 .plus, .E 0 1, .M 0 (.bloch ⟨1/4, .XY⟩) ∅ ∅, .X 1 {0}, .N 2 .plus, .E 1 2,
     .M 1 (.bloch ⟨1/8, .XY⟩) ∅ ∅, .X 2 {1}] := rfl
  rw [this] at h
  simp at h

theorem stdExample_ready (ones : Finset ℕ) : TnReady (exTnEnv ones) stdExample .auto where
  env_ok := exTnEnv_ok ones
  outputs := stdExample_outputsOk
  loop := stdExample_noSelfLoop
  signals := stdExample_noSignal
  plus := stdExample_plus
  std := ⟨_, stdExampleSP_eq⟩
  neighbour := by
    intro n hn
    have hm : measuredIn stdExample.seq = [0, 1] := rfl
    rw [hm] at hn
    have h01 : edgeCount stdExample.seq 0 1 = 1 := rfl
    have h12 : edgeCount stdExample.seq 1 2 = 1 := rfl
    rcases List.mem_cons.1 hn with rfl | hn
    · exact ⟨1, by rw [h01]; exact odd_one⟩
    · obtain rfl := List.mem_singleton.1 hn
      exact ⟨2, by rw [h12]; exact odd_one⟩
  sel := fun _ _ => ⟨_, rfl⟩
  selAgain := fun _ _ => ⟨_, rfl⟩
  mode_ok := trivial

/-- The hypotheses of `C63_run_partial` and of `C63_deterministic_partial` are met by a pattern that is not in standard form. -/
example : ∃ st st', tnSimulate (exTnEnv {1}) stdExample .auto (some (.state PlanarState.plus)) = .ok st ∧
    simulate exampleEnv' stdExample (.state PlanarState.plus) true (fun _ _ => 7) = .ok st' ∧
    ∃ κ : ℂ, ‖κ‖ = 1 ∧ st.net.toStatevector = .ok (some ((List.range (2 ^ st'.sv.nqubit)).map fun i => κ * st'.sv.psi i)) := by
  obtain ⟨f, hf⟩ : ∃ f, stdExample.toPauliFlow exEnum exOrd = .ok f := by
    unfold Pattern.toPauliFlow Pattern.toXZCorrections StdPattern.toXZCorrections
    simp only [stdExampleSP_eq, stdExampleSP_og, bind, Except.bind]
    exact ⟨_, rfl⟩
  obtain ⟨xz, -, -, ⟨f', -, -, hfol⟩ | ⟨herr, -⟩⟩ := C61_to_pauliflow_partial stdExample stdExample_outputsOk stdExample_noSelfLoop stdExample_plus
    stdExampleSP stdExampleSP_eq exEnum exEnum_valid exOrd exOrd_valid stdExample_inputs
  · exact C63_deterministic_partial _ _ _ (stdExample_ready {1}) hfol.1 _ (exampleEnv_okAll _) _ _ fun _ _ => ⟨_, rfl⟩
  · rw [hf] at herr; cases herr

/-! ### The probability of an outcome is supposed to be 1/2 -/

/-- Two nodes linked by CZ: X is measured on the first one and Z on the second one. -/
noncomputable def corrPattern : Pattern :=
  (Pattern.empty []).extend [.N 0 .plus, .N 1 .plus, .E 0 1, .M 0 (.bloch ⟨0, .XY⟩) ∅ ∅, .M 1 (.bloch ⟨0, .XZ⟩) ∅ ∅]

theorem corrPattern_seq : corrPattern.seq = [.N 0 .plus, .N 1 .plus, .E 0 1, .M 0 (.bloch ⟨0, .XY⟩) ∅ ∅, .M 1 (.bloch ⟨0, .XZ⟩) ∅ ∅] := rfl

theorem corrPattern_ready (ones : Finset ℕ) (mode : GraphPrepMode) (hmode : mode ≠ .other) : TnReady (exTnEnv ones) corrPattern mode where
  env_ok := exTnEnv_ok ones
  outputs := by
    refine ⟨by decide, by decide, fun n => ?_⟩
    have : corrPattern.outputs = [] := rfl
    rw [this]
    have hl : (introduced [] corrPattern.seq).filter (fun n => n ∉ measuredIn corrPattern.seq) = [] := rfl
    have h2 : n ∈ (introduced [] corrPattern.seq).filter (fun n => n ∉ measuredIn corrPattern.seq) ↔
        Live corrPattern.inputs corrPattern.seq n := by
      simp only [List.mem_filter, decide_eq_true_eq]; rfl
    rw [← h2, hl]
  loop := by
    intro u v h
    rw [corrPattern_seq] at h
    simp at h
    omega
  signals := by intro n d h; rw [corrPattern_seq] at h; simp at h
  plus := by
    intro n st h
    rw [corrPattern_seq] at h
    simp at h
    rcases h with h | h <;> exact h.2
  std := ⟨_, rfl⟩
  neighbour := by
    intro n hn
    have hm : measuredIn corrPattern.seq = [0, 1] := rfl
    rw [hm] at hn
    have h01 : edgeCount corrPattern.seq 0 1 = 1 := rfl
    have h12 : edgeCount corrPattern.seq 1 0 = 1 := rfl
    rcases List.mem_cons.1 hn with rfl | hn
    · exact ⟨1, by rw [h01]; exact odd_one⟩
    · obtain rfl := List.mem_singleton.1 hn
      exact ⟨0, by rw [h12]; exact odd_one⟩
  sel := fun _ _ => ⟨_, rfl⟩
  selAgain := fun _ _ => ⟨_, rfl⟩
  mode_ok := by
    cases mode with
    | other => exact absurd rfl hmode
    | sequential => trivial
    | auto => trivial
    | parallel => exact (rfl : corrPattern.isStandard false = true)
    | opt => exact (rfl : corrPattern.isStandard false = true)

theorem corrPattern_sem (r : ℕ → Bool) (h0 : r 0 = false) (h1 : r 1 = true) :
    semCmds r corrPattern.seq (InputData.toState corrPattern.inputs (.state PlanarState.plus)) = 0 := by
  have hi : corrPattern.inputs = [] := rfl
  rw [hi, corrPattern_seq]
  funext b
  simp [semCmds, Command.sem, h0, h1, measVec, Measurement.toBloch, projOut, prep, cz, op1_one, powB, parity, InputData.toState, prodState,
    PlanarState.vec, PlanarState.plus, planarState]

/-- **C63** The selector is told that every outcome has probability 1/2, so that it can choose a branch that has probability zero: two nodes
linked by CZ, X measured on the first one and Z on the second one, with the outcomes 0 and 1. The run succeeds, and `to_statevector()` is NaN. -/
theorem C63_impossible_branch (mode : GraphPrepMode) (hmode : mode ≠ .other) :
    ∃ st, tnSimulate (exTnEnv {1}) corrPattern mode (some (.state PlanarState.plus)) = .ok st ∧ st.results.get? 0 = some false ∧
      st.results.get? 1 = some true ∧ st.net.norm = 0 ∧ st.net.toStatevector = .ok none ∧
      ∀ r, Agrees st.results r → branchProb corrPattern.inputs (InputData.toState corrPattern.inputs (.state PlanarState.plus)) corrPattern.seq r = 0 := by
  obtain ⟨st, h1, h2, h3, h4⟩ := (corrPattern_ready {1} mode hmode).run
  have g0 : st.results.get? 0 = some false := by
    obtain ⟨res, o, -, -, a, b⟩ := h3 [.N 0 .plus, .N 1 .plus, .E 0 1] 0 _ _ _ _ rfl
    obtain rfl := Except.ok.inj a
    exact b
  have g1 : st.results.get? 1 = some true := by
    obtain ⟨res, o, -, -, a, b⟩ := h3 [.N 0 .plus, .N 1 .plus, .E 0 1, .M 0 (.bloch ⟨0, .XY⟩) ∅ ∅] 1 _ _ _ _ rfl
    obtain rfl := Except.ok.inj a
    exact b
  obtain ⟨r, hr⟩ := exists_agrees st.results
  obtain ⟨c, -, h5⟩ := h4 r hr
  have hz : ∀ r, Agrees st.results r → semCmds r corrPattern.seq (InputData.toState corrPattern.inputs (.state PlanarState.plus)) = 0 :=
    fun r hr => corrPattern_sem r (hr 0 _ g0) (hr 1 _ g1)
  obtain ⟨-, h6, h7⟩ := h5 0 (hz r hr).symm
  have hs : ∀ l, stateNormSq l (0 : QState) = 0 := by intro l; simp [stateNormSq]
  refine ⟨st, h1, g0, g1, by rw [h6, hs]; simp, by rw [h7 (fun _ => 0) rfl, if_pos (hs _)], fun r hr => ?_⟩
  unfold branchProb
  rw [hz r hr, hs]

/-- A node without neighbours, on which X is measured. -/
noncomputable def isoPattern : Pattern := (Pattern.empty []).extend [.N 0 .plus, .M 0 (.bloch ⟨0, .XY⟩) ∅ ∅]

theorem isoPattern_prob (r : ℕ → Bool) :
    branchProb [] (InputData.toState [] (.state PlanarState.plus)) [.N 0 .plus, .M 0 (.bloch ⟨0, .XY⟩) ∅ ∅] r = if r 0 then 0 else 1 := by
  have hl : liveList [] [.N 0 .plus, .M 0 (.bloch ⟨0, .XY⟩) ∅ ∅] = [] := rfl
  have hs2 : ((Real.sqrt 2 : ℂ))⁻¹ * (Real.sqrt 2 : ℂ)⁻¹ = 1 / 2 := by
    rw [← mul_inv, ← Complex.ofReal_mul, Real.mul_self_sqrt (by norm_num)]; norm_num
  have hsem : semCmds r [.N 0 .plus, .M 0 (.bloch ⟨0, .XY⟩) ∅ ∅] (InputData.toState [] (.state PlanarState.plus)) = fun _ => if r 0 then 0 else 1 := by
    funext b
    have e1 : parity r ∅ = false := by simp [parity]
    simp only [semCmds_cons, semCmds_nil, Command.sem, e1, powB, Bool.false_eq_true, if_false, op1_one]
    cases h0 : r 0
    · simp only [projOut, prep, measVec, Measurement.toBloch, PlanarState.vec, PlanarState.plus, planarState, InputData.toState, prodState]
      simp only [Bool.false_eq_true, if_false, add_zero, zero_mul, mul_zero, Complex.ofReal_zero, Complex.exp_zero]
      simp [hs2]
      norm_num
    · simp only [projOut, prep, measVec, Measurement.toBloch, PlanarState.vec, PlanarState.plus, planarState, InputData.toState, prodState]
      have hpi : Complex.exp (Complex.I * (Real.pi : ℂ)) = -1 := by rw [mul_comm]; exact Complex.exp_pi_mul_I
      simp [hpi, div_eq_mul_inv, hs2]
  unfold branchProb
  rw [hl, hsem]
  unfold stateNormSq
  cases r 0 <;> simp

/-- **C63** For a node without neighbours, the selector is told the probability of the outcome of a measurement in the computational basis,
whatever the measurement is: when X is measured on a node in the state `|+⟩`, the selector is told that the outcomes have probability 1/2, while the
outcome 1 has probability 0. If the selector chooses it, the run succeeds, and `to_statevector()` is NaN. -/
theorem C63_isolated_wrong (env : TnEnv) (henv : env.Ok) (hsel : env.sel [] 0 (1 / 2) = .ok true) (hsel' : ∃ o, env.selAgain [] 0 (1 / 2) = .ok o) :
    ∃ st, tnSimulate env isoPattern .sequential (some (.state PlanarState.plus)) = .ok st ∧ st.results.get? 0 = some true ∧
      st.net.toStatevector = .ok none ∧
      ∀ r, branchProb isoPattern.inputs (InputData.toState isoPattern.inputs (.state PlanarState.plus)) isoPattern.seq r = if r 0 then 0 else 1 := by
  have hseq : isoPattern.seq = [.N 0 .plus, .M 0 (.bloch ⟨0, .XY⟩) ∅ ∅] := rfl
  have hpo : isoPattern.OutputsOk := by
    refine ⟨by decide, by decide, fun n => ?_⟩
    have : isoPattern.outputs = [] := rfl
    rw [this]
    have hl : (introduced [] isoPattern.seq).filter (fun n => n ∉ measuredIn isoPattern.seq) = [] := rfl
    have h2 : n ∈ (introduced [] isoPattern.seq).filter (fun n => n ∉ measuredIn isoPattern.seq) ↔
        Live isoPattern.inputs isoPattern.seq n := by
      simp only [List.mem_filter, decide_eq_true_eq]; rfl
    rw [← h2, hl]
  obtain ⟨iso, hi1, hi2⟩ := C63_isolated_nodes isoPattern hpo (by intro u v h; rw [hseq] at h; simp at h)
    (by intro n st h; rw [hseq] at h; simp at h; exact h.2) _ rfl env.enum henv.enum
  have hmem : 0 ∈ iso := (hi2 0).2 ⟨by decide, fun w => by
    have : edgeCount isoPattern.seq 0 w = 0 := by rw [hseq]; simp [edgeCount]
    rw [this]; simp⟩
  obtain ⟨o', ho'⟩ := hsel'
  have hprob : ∀ o, TnState.isolatedProb ⟨⟨[vecTensor (PlanarState.vec ⟨.XY, 0⟩) 0 0 true], 1, [(0, 0)], some []⟩, false, iso, []⟩ 0 o = .ok (1 / 2) := by
    intro o
    have hfind : TensorNet.openTensor ⟨[vecTensor (PlanarState.vec ⟨.XY, 0⟩) 0 0 true], 1, [(0, 0)], some []⟩ 0 =
        .ok (vecTensor (PlanarState.vec ⟨.XY, 0⟩) 0 0 true) := by
      simp [TensorNet.openTensor, vecTensor]
    have hhalf : ∀ o, Complex.normSq ((vecTensor (PlanarState.vec ⟨.XY, 0⟩) 0 0 true).data [o]) = 1 / 2 := by
      intro o
      cases o <;> simp [vecTensor, PlanarState.vec, planarState]
    have hlen : ¬ (vecTensor (PlanarState.vec ⟨.XY, 0⟩) 0 0 true).inds.length ≠ 1 := by simp [vecTensor]
    unfold TnState.isolatedProb
    rw [hfind]
    simp only [bind, Except.bind]
    rw [if_neg hlen]
    simp only [hhalf, pure, Except.pure]
    congr 1
    norm_num
  set v : Bool → ℂ := fun x => TnState.outcomeVec (.bloch ⟨0, .XY⟩) true x * ((1 / Real.sqrt (1 / 2) : ℝ) : ℂ) with hv
  set net : TensorNet := ⟨[vecTensor (PlanarState.vec ⟨.XY, 0⟩) 0 0 false, (vecTensor v 0 0 false).conj], 1, [(0, 0)], some []⟩ with hnet
  have hrep : Represents net ∅ {0} (projOut 0 v (prep 0 (PlanarState.vec ⟨.XY, 0⟩) fun _ => 1)) := by
    have h1 := (Represents.empty (some [])).addVec (n := 0) (by simp) (PlanarState.vec ⟨.XY, 0⟩) true
    have h2 := h1.project1 (n := 0) (by simp) v
    exact h2
  have hzero : projOut 0 v (prep 0 (PlanarState.vec ⟨.XY, 0⟩) fun _ => 1) = 0 := by
    funext b
    simp [projOut, prep, hv, TnState.outcomeVec, Measurement.toBloch, PlanarState.vec, planarState, Plane.orth, Ops.fromAxis, Ops.Z]
  refine ⟨⟨net, false, iso, [(0, true)]⟩, ?_, rfl, ?_, ?_⟩
  · have hadd : TnState.addNode ⟨TensorNet.empty (some []), false, iso, []⟩ 0 .plus =
        .ok ⟨⟨[vecTensor (PlanarState.vec ⟨.XY, 0⟩) 0 0 true], 1, [(0, 0)], some []⟩, false, iso, []⟩ := by
      simp only [TnState.addNode, ne_eq, not_true_eq_false, if_false, TnState.addNodes, Bool.false_eq_true, bind, Except.bind, pure, Except.pure]
      rfl
    have hmeas : TnState.measureNode env ⟨⟨[vecTensor (PlanarState.vec ⟨.XY, 0⟩) 0 0 true], 1, [(0, 0)], some []⟩, false, iso, []⟩ 0
        (.bloch ⟨0, .XY⟩) = .ok (⟨net, false, iso, []⟩, true) := by
      unfold TnState.measureNode
      simp only [hmem, decide_true, if_true, hprob, hsel, ho', bind, Except.bind, pure, Except.pure]
      rfl
    have hdesc : SimState.describeMeasurement ([] : PyDict ℕ Bool) (.bloch ⟨0, .XY⟩) ∅ ∅ = .ok (.bloch ⟨0, .XY⟩) := by
      unfold SimState.describeMeasurement
      rw [Finset.sort_empty]
      rfl
    have hinit : tnInit env isoPattern .sequential = .ok ⟨TensorNet.empty (some []), false, iso, []⟩ := by
      unfold tnInit
      simp only [hi1, bind, Except.bind, pure, Except.pure, Bool.false_eq_true, if_false]
      rfl
    have hrun : isoPattern.checkRunnability = .ok () := rfl
    have hin : TnState.addNodes ⟨TensorNet.empty (some []), false, iso, []⟩ isoPattern.inputs = .ok ⟨TensorNet.empty (some []), false, iso, []⟩ := rfl
    unfold tnSimulate
    simp only [hinit, hin, hrun, bind, Except.bind, ne_eq, not_true_eq_false, if_false, pure, Except.pure, hseq, TnState.loop, TnState.step, hadd,
      hdesc, hmeas]
    rfl
  · rw [hrep.statevector (l := []) (by simp) (by simp) rfl (psi := fun _ => 0) (by rw [hzero]; rfl), if_pos (by simp [normSq])]
  · intro r
    have hi : isoPattern.inputs = [] := rfl
    rw [hi, hseq]
    exact isoPattern_prob r

end Graphix
