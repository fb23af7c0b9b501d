import Verif.Proofs.RemovePauliEnd
import Verif.Proofs.NeverZero
import Verif.Props.StdOpenGraph
import Verif.Props.Determinism

/-!
# C35: removing Pauli measurements
-/

namespace Graphix

open Function
open scoped symmDiff

/-! ### Specification -/

/-- The branch of the original pattern that branch `r'` of the new pattern stands for, when node `n` of the new pattern is
node `σ n` of the original one: removed nodes have outcome 0. -/
def keptBranch (nodes' : List ℕ) (σ : Equiv.Perm ℕ) (r' : ℕ → Bool) (w : ℕ) : Bool :=
  if σ.symm w ∈ nodes' then r' (σ.symm w) else false

/-- `sp'` is what remains of `sp` when nodes are removed and node `n` of the new pattern is node `σ n` of the old one. -/
structure PauliRemoved (leave : Finset ℕ) (sp sp' : StdPattern) (warnings : ℕ) (σ : Equiv.Perm ℕ) : Prop where
  /-- The result is a well-formed standardized pattern, -/
  wf : sp'.WF
  /-- with the same inputs, -/
  inputs : sp'.inputs = sp.inputs
  fixed : ∀ i ∈ sp.inputs, σ i = i
  /-- the same outputs in the same order, -/
  outputs : sp'.outputs.map σ = sp.outputs
  /-- no new preparation and no new measurement. -/
  prepared : sp'.nList.Sublist sp.nList
  measured : ∀ m' ∈ sp'.mList, ∃ m ∈ sp.mList, m.node = σ m'.node
  /-- In each branch it does, up to a scalar, what the pushed pattern does in the branch where the removed nodes have
  outcome 0; without a warning, the scalar accounts for the probability 1/2 of each removed outcome. -/
  sem : ∀ edges, StdPattern.Enumerates edges sp.eSet → ∀ edges', StdPattern.Enumerates edges' sp'.eSet → ∀ r' : ℕ → Bool,
    ∃ c : ℂ, (warnings = 0 → ‖c‖ = (1 / Real.sqrt 2) ^ (sp.nList.length - sp'.nList.length)) ∧
      ∀ ψ, Absent (sp.nList.map Prod.fst).toFinset ψ →
        semCmds (keptBranch sp'.nodeList σ r') ((sp.performPauliPushing leave).cmds edges) ψ =
          c • ren σ (semCmds r' (sp'.cmds edges') ψ)
  /-- The only Pauli measurements left (but for the inputs and the nodes to leave) are X measurements, on nodes which
  have neighbours, all inputs. -/
  left : ∀ m' ∈ sp'.mList, ∀ pm, m'.measurement = .pauli pm → m'.node ∉ sp'.inputs → σ m'.node ∉ leave →
    pm.axis = .X ∧ (∃ k, s(m'.node, k) ∈ sp'.eSet) ∧ ∀ k, s(m'.node, k) ∈ sp'.eSet → k ∈ sp'.inputs

/-! ### Proofs -/

theorem CutOk.pauliOf_mem {sp : StdPattern} {cut : PauliCut} (h : CutOk sp cut) {w : ℕ} {m : PauliMeasurement} {s t : Finset ℕ}
    (hm : (⟨w, .pauli m, s, t⟩ : MCmd) ∈ cut.pauli) : cut.pauliOf w = some m := by
  have hnd : (cut.pauli.map MCmd.node).Nodup := by
    have := h.wf.m_nodup
    unfold StdPattern.measNodes at this
    rw [h.list, List.map_append] at this
    exact (List.nodup_append.1 this).1
  have hex : ∃ x, cut.pauli.find? (fun m => decide (m.node = w)) = some x := by
    rw [← Option.isSome_iff_exists, List.find?_isSome]
    exact ⟨_, hm, by simp⟩
  obtain ⟨x, hx⟩ := hex
  have h1 := List.mem_of_find?_eq_some hx
  have h2 := List.find?_some hx
  simp only [decide_eq_true_eq] at h2
  have : x = ⟨w, .pauli m, s, t⟩ := List.inj_on_of_nodup_map hnd h1 hm h2
  unfold PauliCut.pauliOf
  rw [hx, this]

/-- **C35** `remove_pauli_measurements` succeeds on every well-formed standardized pattern whose preparations are all `|+⟩`,
whatever the order in which sets are enumerated, and returns what remains of the pattern. -/
theorem C35_remove_pauli (sp : StdPattern) (hw : sp.WF) (hplus : ∀ n ∈ sp.nList, n.2 = PlanarState.plus) (leave : Finset ℕ)
    (order : Rpm → Finset ℕ → List ℕ) (hord : ∀ p s x, x ∈ order p s ↔ x ∈ s) :
    ∃ sp' warnings σ, removePauliMeasurements order (PauliCut.ofStd leave sp) sp = .ok (sp', warnings) ∧
      PauliRemoved leave sp sp' warnings σ := by
  obtain ⟨p0, e0, hc, h0, o0, n0, a0, op0⟩ := rpm_init_ok sp hw leave
  have hi := cutInv leave sp.mList hw.mo hw.m_nodup
  change CutInv leave sp.mList (PauliCut.ofStd leave sp) at hi
  obtain ⟨p1, π, e1, h1, o1, s1, end1, l1⟩ := mainLoop_ok hord hc p0.nodes.length h0 o0 (.inl le_rfl)
  obtain ⟨p2, k, e2, h2, o2, s2, f2, l2⟩ := removeIsolated_ok hc.wf h1 o1 end1
  set sp1 := sp.performPauliPushing leave with hsp1
  have hplus1 : ∀ n ∈ sp1.nList, n.2 = PlanarState.plus := hplus
  have e3 := toStd_eq (sp0 := sp) h2 o2 hc.list rfl rfl rfl
  have hw' := result_wf hc.wf h2 o2
  have hmeas : ∀ m' ∈ (p2.result π sp1).mList, ∃ m ∈ sp1.mList, π m'.node = m.node ∧ m'.node ∈ p2.nodes ∧
      m'.measurement = m.measurement.clifford (p2.specs m'.node).clifford := by
    intro m' hm'
    obtain ⟨m, hm, hnew⟩ := List.mem_filterMap.1 hm'
    unfold Rpm.newM at hnew
    obtain ⟨node, hn, rfl⟩ := Option.map_eq_some_iff.1 hnew
    obtain ⟨h3, h4⟩ := (h2.nodeMap_iff _ _).1 hn
    exact ⟨m, hm, h4, h3, rfl⟩
  have hedges : ∀ x y, s(x, y) ∈ (p2.result π sp1).eSet ↔ p2.adj x y = true := by
    intro x y
    unfold Rpm.result
    simp only [List.mem_toFinset]
    rw [mem_edgesOf_iff h2.simple.symm h2.simple.irrefl]
    exact ⟨fun h => h.2.2, fun h => ⟨h2.simple.mem _ _ h, h2.simple.mem _ _ (by rw [h2.simple.symm]; exact h), h⟩⟩
  refine ⟨p2.result π sp1, k, π, ?_, hw', rfl, ?_, ?_, List.filter_sublist, ?_, ?_, ?_⟩
  · unfold removePauliMeasurements
    simp only [bind, Except.bind, e0, e1, e2, e3, pure, Except.pure]
  · intro i hi'
    apply h2.fix
    intro hc'
    exact (List.nodup_append.1 hw.nodes_nodup).2.2 i hi' i hc' rfl
  · unfold Rpm.result
    simp only [List.map_map]
    rw [show (π : ℕ → ℕ) ∘ π.symm = id from by funext x; simp, List.map_id]
    rfl
  · intro m' hm'
    obtain ⟨m, hm, h3, -, -⟩ := hmeas m' hm'
    have : m.node ∈ sp.mList.map MCmd.node := by
      have := hi.perm_node.mem_iff (a := m.node)
      rw [← this, ← hc.list]
      exact List.mem_map_of_mem hm
    obtain ⟨m0, hm0, h4⟩ := List.mem_map.1 this
    exact ⟨m0, hm0, by rw [h4, h3]⟩
  · intro edges hen edges' hen' r'
    have hkept : keptBranch (p2.result π sp1).nodeList π r' = backBranch p2.nodeMap r' := by
      funext w
      unfold keptBranch backBranch
      rw [h2.map]
      simp only [result_nodeList h2]
      by_cases hx : π.symm w ∈ p2.nodes <;> simp [hx]
    obtain ⟨c, hc1, ec⟩ := (s1.transW s2).2 (backBranch p2.nodeMap r') (by
      intro w hw'; unfold backBranch; rw [hw'])
    obtain ⟨d, hd1, ed⟩ := result_val hc.wf h2 o2 hplus1 edges' hen' r'
    have hd0 : d ≠ 0 := by rintro rfl; simp at hd1
    set q : ℂ := 1 / (Real.sqrt 2 : ℂ) with hq
    set N := sp.nList.length with hN
    set N' := (p2.result π sp1).nList.length with hN'
    have hle : N' ≤ N := List.length_filter_le _ _
    have hq0 : q ≠ 0 := by rw [hq]; exact one_div_ne_zero sqrt2_ne
    refine ⟨q ^ (N - N') * c * d⁻¹, fun hk => ?_, fun ψ hψ => ?_⟩
    · rw [norm_mul, norm_mul, norm_inv, hc1 hk, hd1, norm_pow]
      have hnq : ‖q‖ = 1 / Real.sqrt 2 := by
        rw [hq, norm_div, norm_one, Complex.norm_real, Real.norm_of_nonneg (Real.sqrt_nonneg 2)]
      rw [hnq]; simp
    · rw [hkept, hc.wf.closed hplus1 (l := p0.nodes) (by rw [n0]; exact List.Perm.refl _) edges hen]
      have hval : locOps (sp1.nodeOp (backBranch p2.nodeMap r')) p0.nodes (entangleAll (adjOf sp1.eSet) p0.nodes ψ) =
          p0.val sp1 (backBranch p2.nodeMap r') ψ := by
        unfold Rpm.val
        rw [a0]
        exact (locOps_congr (fun n hn => op0 _ n hn) _).symm
      have hE := ec ψ hψ
      change p0.val sp1 _ ψ = _ at hE
      rw [hval, hE, ed, ren_smul, smul_smul, smul_smul]
      congr 1
      have : q ^ N = q ^ (N - N') * q ^ N' := by rw [← pow_add]; congr 1; omega
      change q ^ N * c = _
      rw [this]
      field_simp
  · intro m' hm' pm hpm hni hnl
    obtain ⟨m, hm, h3, h4, h5⟩ := hmeas m' hm'
    have hni' : m'.node ∉ p2.inputs := by rw [h2.inputs]; exact fun hc' => hni (List.mem_toFinset.1 hc')
    -- the original measurement is a Pauli measurement
    obtain ⟨m0, hm0⟩ : ∃ m0, m.measurement = .pauli m0 := by
      rw [hpm] at h5
      cases hme : m.measurement with
      | pauli m0 => exact ⟨m0, rfl⟩
      | bloch b => rw [hme] at h5; cases h5
    have hin : m ∈ (PauliCut.ofStd leave sp).pauli := by
      rw [hc.list] at hm
      rcases List.mem_append.1 hm with h | h
      · exact h
      · exact absurd (hi.nonPauliShape m h m0 hm0) (by rw [← h3]; exact hnl)
    have hof : (PauliCut.ofStd leave sp).pauliOf (π m'.node) = some m0 := by
      rw [h3]
      obtain ⟨n, me, s, t⟩ := m
      simp only at hm0
      subst hm0
      exact hc.pauliOf_mem hin
    have hspec : (p2.specs m'.node).pauli = some pm := by
      rw [h2.pauliSpec _ h4, hof, Option.map_some]
      rw [hpm, hm0, Measurement.clifford_pauli] at h5
      cases h5; rfl
    have hnout : m'.node ∉ p2.outputs := h2.not_output hc o2 h4 hspec
    refine ⟨f2.axis _ h4 hni' pm hspec, ?_, ?_⟩
    · obtain ⟨k, hk⟩ := f2.connected _ h4 hni' hnout
      exact ⟨k, (hedges _ _).2 hk⟩
    · intro k hk
      have := f2.onlyInputs _ h4 hni' (by rw [hspec]; rfl) k ((hedges _ _).1 hk)
      rw [h2.inputs] at this
      exact List.mem_toFinset.1 this

/-! ### Patterns -/

/-- What `q` (returned with so many warnings) is to `p`, when node `n` of `q` is node `σ n` of `p`. -/
structure PauliRemovedPattern (p q : Pattern) (warnings : ℕ) (σ : Equiv.Perm ℕ) : Prop where
  runnable : q.checkRunnability = .ok ()
  inputs : q.inputs = p.inputs
  fixed : ∀ i ∈ p.inputs, σ i = i
  outputs : q.outputs.map σ = p.outputs
  prepared : q.preparedNodes ⊆ p.preparedNodes
  measured : ∀ n ∈ measuredIn q.seq, σ n ∈ measuredIn p.seq
  /-- Each branch of `q` does, up to a scalar, what some branch of `p` does. -/
  sem : ∀ r : ℕ → Bool, ∃ r₀ : ℕ → Bool, ∃ c : ℂ,
    (warnings = 0 → ‖c‖ = (1 / Real.sqrt 2) ^ (p.preparedNodes.card - q.preparedNodes.card)) ∧
    ∀ ψ, Absent p.preparedNodes ψ → semCmds r₀ p.seq ψ = c • ren σ (semCmds r q.seq ψ)
  /-- The Pauli measurements that are left are on inputs, or are X measurements of nodes whose neighbours are all
  inputs. -/
  left : ∀ n m s t, Command.M n (.pauli m) s t ∈ q.seq → n ∉ q.inputs →
    m.axis = .X ∧ (∃ k, s(n, k) ∈ q.seq.filterMap Command.edge?) ∧
      ∀ k, s(n, k) ∈ q.seq.filterMap Command.edge? → k ∈ q.inputs

/-- `q` is a pattern for the standardized pattern `sp`. -/
structure PatternFor (sp : StdPattern) (q : Pattern) : Prop where
  run : q.checkRunnability = .ok ()
  inputs : q.inputs = sp.inputs
  outputs : q.outputs = sp.outputs
  meas : q.seq.filter (fun c => c.measured?.isSome) = sp.mList.map MCmd.toCmd
  measured : measuredIn q.seq = sp.mList.map MCmd.node
  intro : ∀ n, n ∈ introduced q.inputs q.seq ↔ n ∈ sp.inputs ∨ n ∈ sp.nList.map Prod.fst
  edges : ∀ e, e ∈ q.seq.filterMap Command.edge? ↔ e ∈ sp.eSet
  sem : ∀ edges, StdPattern.Enumerates edges sp.eSet → ∀ r ψ, semCmds r q.seq ψ = semCmds r (sp.cmds edges) ψ

theorem patternFor_spaceOptimal {sp : StdPattern} (hw : sp.WF) {nbr : ℕ → List ℕ} (hb : NbrOk sp.eSet nbr) :
    ∃ q, sp.toSpaceOptimalPattern nbr = .ok q ∧ PatternFor sp q := by
  obtain ⟨q, hq⟩ := C19_succeeds sp hw nbr hb
  obtain ⟨c1, c2, c3, c4, c5, c6, -⟩ := C19_to_space_optimal _ hw _ hb q hq
  refine ⟨q, hq, c1, c2, c3, filter_meas_spaceOptimal hw hb hq, c4, c5, ?_, c6⟩
  obtain ⟨st, h1, e1, e2, e3⟩ := toSpaceOptimal_ok hq
  obtain ⟨st', h1', i, hm, hi, hl⟩ := optSeq_inv hw hb
  rw [h1] at h1'; cases h1'
  rw [e1]; exact i.edges

theorem patternFor_std {sp : StdPattern} (hw : sp.WF) {edges : List (ℕ × ℕ)} (hen : StdPattern.Enumerates edges sp.eSet) :
    ∃ q, sp.toPattern edges = .ok q ∧ PatternFor sp q ∧ q.isStandard true = true := by
  obtain ⟨q, hq⟩ := hw.toPattern_ok edges hen
  obtain ⟨c1, c2, c3, -, -⟩ := toPattern_ok hq
  obtain ⟨r1, r2, r3⟩ := hw.cmds_runnable edges hen
  refine ⟨q, hq, ⟨?_, c2, c3, by rw [c1, filter_meas_cmds], by rw [c1, r3]; rfl, ?_, ?_, ?_⟩, by unfold Pattern.isStandard; rw [c1]; exact cmds_standard _ _⟩
  · rw [checkRunnability_iff, c1, c2]; exact r1
  · intro n; rw [c1, c2, r2]; unfold StdPattern.nodeList; rw [List.mem_append]
  · intro e; rw [c1, filterMap_edge_cmds, ← hen.2, List.mem_toFinset]
  · intro edges' hen' r ψ
    rw [c1, semCmds_cmds sp edges hen, semCmds_cmds sp edges' hen']

theorem fromPattern_plus {p : Pattern} (hplus : ∀ n st, Command.N n st ∈ p.seq → st = PlanarState.plus) {sp : StdPattern}
    (h : StdPattern.fromPattern p = .ok sp) : ∀ n ∈ sp.nList, n.2 = PlanarState.plus := by
  obtain ⟨-, hrun, -, -⟩ := fromPattern_ok h
  obtain ⟨f1, -⟩ := StdBody.run_fields hrun
  intro n hn
  rw [f1] at hn
  simp only [StdBody.init, List.nil_append, List.mem_filterMap] at hn
  obtain ⟨c, hc, hcn⟩ := hn
  cases c <;> simp only [Option.some.injEq, reduceCtorEq] at hcn
  subst hcn
  exact hplus _ _ hc

theorem pattern_removed (p : Pattern) (hp : p.OutputsOk) (hE : NoSelfLoop p.seq)
    (hplus : ∀ n st, Command.N n st ∈ p.seq → st = PlanarState.plus) (sp : StdPattern)
    (h : StdPattern.fromPattern p = .ok sp) (order : Rpm → Finset ℕ → List ℕ) (hord : ∀ p s x, x ∈ order p s ↔ x ∈ s)
    (nbr : StdPattern → ℕ → List ℕ) (hb : ∀ sp, NbrOk sp.eSet (nbr sp)) (edges : StdPattern → List (ℕ × ℕ))
    (he : ∀ sp, StdPattern.Enumerates (edges sp) sp.eSet) (standardize : Bool) :
    ∃ q warnings σ, p.removePauliMeasurements order nbr edges standardize = .ok (q, warnings) ∧ PauliRemovedPattern p q warnings σ ∧
      ∃ sp' : StdPattern, sp'.WF ∧ (∀ n ∈ sp'.nList, n.2 = PlanarState.plus) ∧ PatternFor sp' q ∧ (standardize = true → q.isStandard true = true) := by
  have hw := fromPattern_wf hp hE h
  have hinv := fromPattern_inv hE h
  obtain ⟨-, -, e1, e2⟩ := fromPattern_ok h
  have hpl := fromPattern_plus hplus h
  obtain ⟨sp', k, σ, h1, h2⟩ := C35_remove_pauli sp hw hpl ∅ order hord
  obtain ⟨q, hq, hfor, hstd⟩ : ∃ q, (if standardize then sp'.toPattern (edges sp') else sp'.toSpaceOptimalPattern (nbr sp')) = .ok q ∧
      PatternFor sp' q ∧ (standardize = true → q.isStandard true = true) := by
    cases standardize
    · obtain ⟨q, hq, hf⟩ := patternFor_spaceOptimal h2.wf (hb sp')
      exact ⟨q, hq, hf, by simp⟩
    · obtain ⟨q, hq, hf, hs⟩ := patternFor_std h2.wf (he sp')
      exact ⟨q, hq, hf, fun _ => hs⟩
  obtain ⟨c1, c2, c3, c3', c4, c5, c5', c6⟩ := id hfor
  have hprep : p.preparedNodes = (sp.nList.map Prod.fst).toFinset := by
    unfold Pattern.preparedNodes; rw [hinv.nl]
  have hnd : (sp.nList.map Prod.fst).Nodup := (List.nodup_append.1 hw.nodes_nodup).2.1
  have hnd' : (sp'.nList.map Prod.fst).Nodup := (List.nodup_append.1 h2.wf.nodes_nodup).2.1
  have hrun : Runnable q.inputs q.seq := (checkRunnability_iff _).1 c1
  have hqn : q.inputs.Nodup := by rw [c2]; exact (List.nodup_append.1 h2.wf.nodes_nodup).1
  have hprep' : q.preparedNodes = (sp'.nList.map Prod.fst).toFinset := by
    have hin := hrun.introduced_nodup hqn
    ext n
    have := c5 n
    unfold introduced at this
    rw [List.mem_append] at this
    unfold Pattern.preparedNodes
    rw [List.mem_toFinset, List.mem_toFinset]
    have d1 := (List.nodup_append.1 hin).2.2
    have d2 := (List.nodup_append.1 h2.wf.nodes_nodup).2.2
    constructor
    · intro hn
      rcases this.1 (.inr hn) with h' | h'
      · exact absurd rfl (d1 n (by rw [c2]; exact h') n hn)
      · exact h'
    · intro hn
      rcases this.2 (.inr hn) with h' | h'
      · exact absurd rfl (d2 n (by rw [← c2]; exact h') n hn)
      · exact h'
  obtain ⟨es, hen⟩ := enumerates_exists sp.eSet
  obtain ⟨es', hen'⟩ := enumerates_exists sp'.eSet
  obtain ⟨-, -, -, -, -, -, w7, -⟩ := C15_pauli_pushing sp hw ∅
  refine ⟨q, k, σ, ?_, ⟨c1, by rw [c2, h2.inputs, e1], fun i hi => h2.fixed i (by rw [e1]; exact hi),
    by rw [c3, h2.outputs, e2], ?_, ?_, ?_, ?_⟩, sp', h2.wf, fun n hn => hpl n (h2.prepared.subset hn), hfor, hstd⟩
  · unfold Pattern.removePauliMeasurements
    simp only [bind, Except.bind, h, h1, pure, Except.pure]
    cases standardize
    · rw [if_neg (by simp)] at hq; simp only [hq, Bool.false_eq_true, if_false]
    · rw [if_pos rfl] at hq; simp only [hq, if_true]
  · rw [hprep, hprep']
    intro n hn
    rw [List.mem_toFinset] at hn ⊢
    exact (h2.prepared.map _).subset hn
  · intro n hn
    rw [c4] at hn
    obtain ⟨m', hm', rfl⟩ := List.mem_map.1 hn
    obtain ⟨m, hm, e⟩ := h2.measured m' hm'
    rw [← hinv.ml, ← e]
    exact List.mem_map_of_mem hm
  · intro r
    obtain ⟨c, hc1, hc2⟩ := h2.sem es hen es' hen' r
    obtain ⟨d, hd1, hd2⟩ := (((w7 es hen (keptBranch sp'.nodeList σ r)).trans
      (OpPhaseEq.of_eq (fun ψ => semCmds_cmds sp es hen _ ψ))).trans (hinv.sem _).symm).symm
    refine ⟨shiftBranch (SignalDict.at (PauliCut.ofStd ∅ sp).shifted) (keptBranch sp'.nodeList σ r), d * c, fun hk => ?_, fun ψ hψ => ?_⟩
    case refine_2 =>
      rw [hd2 ψ, hc2 ψ (by rw [← hprep]; exact hψ), smul_smul, c6 es' hen' r ψ]
    case refine_1 =>
      rw [norm_mul, hd1, hc1 hk, one_mul, hprep, hprep', List.toFinset_card_of_nodup hnd, List.toFinset_card_of_nodup hnd',
        List.length_map, List.length_map]
  · intro n m s t hm hn
    have hmem : Command.M n (.pauli m) s t ∈ sp'.mList.map MCmd.toCmd := by
      rw [← c3']
      exact List.mem_filter.2 ⟨hm, by simp [Command.measured?]⟩
    obtain ⟨m', hm', e⟩ := List.mem_map.1 hmem
    obtain ⟨n', me, s', t'⟩ := m'
    simp only [MCmd.toCmd, Command.M.injEq] at e
    obtain ⟨rfl, rfl, rfl, rfl⟩ := e
    obtain ⟨l1, l2, l3⟩ := h2.left _ hm' m rfl (by rw [← c2]; exact hn) (by simp)
    simp only [c5', c2]
    exact ⟨l1, l2, l3⟩

/-- **C35** The API: `pattern.remove_pauli_measurements(copy=True)` succeeds on every pattern with `|+⟩` preparations that
`StandardizedPattern.from_pattern` accepts, whatever the order in which sets are enumerated; with `standardize=True` the result is in
standard form. -/
theorem C35_pattern (p : Pattern) (hp : p.OutputsOk) (hE : NoSelfLoop p.seq)
    (hplus : ∀ n st, Command.N n st ∈ p.seq → st = PlanarState.plus) (sp : StdPattern)
    (h : StdPattern.fromPattern p = .ok sp) (order : Rpm → Finset ℕ → List ℕ) (hord : ∀ p s x, x ∈ order p s ↔ x ∈ s)
    (nbr : StdPattern → ℕ → List ℕ) (hb : ∀ sp, NbrOk sp.eSet (nbr sp)) (edges : StdPattern → List (ℕ × ℕ))
    (he : ∀ sp, StdPattern.Enumerates (edges sp) sp.eSet) (standardize : Bool) :
    ∃ q warnings σ, p.removePauliMeasurements order nbr edges standardize = .ok (q, warnings) ∧ PauliRemovedPattern p q warnings σ ∧
      (standardize = true → q.isStandard true = true) := by
  obtain ⟨q, k, σ, h1, h2, -, -, -, -, h3⟩ := pattern_removed p hp hE hplus sp h order hord nbr hb edges he standardize
  exact ⟨q, k, σ, h1, h2, h3⟩

/-! ### Deterministic patterns -/

theorem measVec_X (s : Sign) (x : Bool) (j : Bool) :
    measVec (.pauli ⟨.X, s⟩) x j = 1 / (Real.sqrt 2 : ℂ) * sgn (j && xor x (decide (s = .minus))) := by
  have h1 : Complex.exp (Complex.I * (Real.pi : ℂ)) = -1 := by
    rw [mul_comm]; exact Complex.exp_pi_mul_I
  have h2 : Complex.exp (Complex.I * ((1 + 1) * (Real.pi : ℂ))) = 1 := by
    rw [show ((1 + 1) * Real.pi : ℂ) = 2 * Real.pi by ring, mul_comm]; exact Complex.exp_two_pi_mul_I
  cases s <;> cases x <;> cases j <;>
    simp [measVec, Measurement.toBloch, PauliMeasurement.toBloch, planarState, sgn, h1, h2] <;> ring

/-- A node measured in `X` whose neighbours are all inputs: some state of the inputs makes the branch impossible. -/
theorem X_on_inputs {sp : StdPattern} (hw : sp.WF) (hplus : ∀ n ∈ sp.nList, n.2 = PlanarState.plus) (edges : List (ℕ × ℕ))
    (hen : StdPattern.Enumerates edges sp.eSet) {m : MCmd} (hm : m ∈ sp.mList) {pm : PauliMeasurement}
    (hpm : m.measurement = .pauli pm) (hax : pm.axis = .X) (hni : m.node ∉ sp.inputs) {k : ℕ} (hk : s(m.node, k) ∈ sp.eSet)
    (hin : ∀ k, s(m.node, k) ∈ sp.eSet → k ∈ sp.inputs) (r : ℕ → Bool) :
    ∃ ψ, OnNodes sp.inputs ψ ∧ ψ ≠ 0 ∧ semCmds r (sp.cmds edges) ψ = 0 := by
  have hs := hw.simple (l := sp.nodeList) (List.Perm.refl _)
  have hu : m.node ∈ sp.nodeList := hw.m_sub _ (List.mem_map_of_mem hm)
  have hkl : k ∈ sp.nodeList := hw.edge _ hk k (by simp)
  have hue : m.node ∉ sp.nodeList.erase m.node := fun hc => (hs.nodup.mem_erase_iff.1 hc).1 rfl
  obtain ⟨y, hy⟩ : ∃ y : Bool, ∃ d : ℂ, ∀ i j, sp.nodeOp r m.node i j = d * sgn (j && y) := by
    rw [hw.nodeOp_meas r hm, hpm]
    obtain ⟨ax, sg⟩ := pm
    simp only at hax
    subst hax
    have hb := bra_pauli ⟨.X, sg⟩ (xor (r m.node) (pauliToggle .X (parity r m.sDomain) (parity r m.tDomain))) (parity r m.sDomain) (parity r m.tDomain)
    rw [Bool.xor_assoc, Bool.xor_self, Bool.xor_false] at hb
    obtain ⟨d, -, hd⟩ := hb
    refine ⟨xor (xor (r m.node) (pauliToggle .X (parity r m.sDomain) (parity r m.tDomain))) (decide (sg = .minus)), d * star (1 / (Real.sqrt 2 : ℂ)), fun i j => ?_⟩
    rw [hd]
    simp only [Matrix.smul_apply, bra, measVec_X, smul_eq_mul, star_mul', mul_assoc]
    congr 2
    unfold sgn; split <;> simp
  obtain ⟨d, hd⟩ := hy
  let f : Basis → Bool := fun b => xorl sp.nodeList fun v => adjOf sp.eSet m.node v && b v
  refine ⟨fun b => if xor y (f b) then 1 else 0, ?_, ?_, ?_⟩
  · intro b b' hb
    have : f b = f b' := by
      apply xorl_congr
      intro v hv
      by_cases ha : adjOf sp.eSet m.node v = true
      · have hvi := hin v (by simpa [adjOf] using ha)
        rw [hb v hvi]
      · simp only [Bool.not_eq_true] at ha; rw [ha]; rfl
    simp only [this]
  · intro hz
    have := congrFun hz (fun v => decide (v = k) && !y)
    have hf : f (fun v => decide (v = k) && !y) = !y := by
      have ha : adjOf sp.eSet m.node k = true := by simpa [adjOf] using hk
      rw [show f (fun v => decide (v = k) && !y) = _ from (xorl_congr (g := fun v => decide (k = v) && !y) fun v _ => by
        by_cases hv : k = v
        · subst hv; simp [ha]
        · simp [hv, Ne.symm hv]).trans (xorl_single hs.nodup hkl fun _ => !y)]
    simp [hf] at this
  · rw [hw.closed hplus (List.Perm.refl _) edges hen, locOps_erase _ hs.nodup hu, locOps_op1 _ _ hue]
    have hz : op1 (sp.nodeOp r m.node) m.node (entangleAll (adjOf sp.eSet) sp.nodeList fun b => if xor y (f b) then 1 else 0) = 0 := by
      funext b
      have hnb : NoBit m.node (fun b => if xor y (f b) then (1 : ℂ) else 0) := by
        intro b x
        have : f (update b m.node x) = f b := by
          apply xorl_congr
          intro v hv
          by_cases hvm : v = m.node
          · subst hvm; rw [hs.irrefl]; rfl
          · rw [update_of_ne hvm]
        simp only [this]
      simp only [op1, hd, Pi.zero_apply, delete_ket hs hu hnb, locOps_Z]
      simp only [Bool.false_and, Bool.true_and, sgn_false, xorl_false, entangleAll_apply]
      change d * 1 * (1 * (_ * if xor y (f b) then 1 else 0)) + d * sgn y * (sgn (f b) * (_ * if xor y (f b) then 1 else 0)) = 0
      cases y <;> cases f b <;> simp
    have := locOps_homog (sp.nodeOp r) (sp.nodeList.erase m.node) 0 0
    rw [zero_smul, zero_smul] at this
    rw [hz, this, smul_zero]

/-- **C35** If the pattern is deterministic (as patterns built from a flow are, C30), then the result does in every branch what the pattern does in
every branch, up to a nonzero scalar; and no Pauli measurement is left but for the inputs. -/
theorem C35_deterministic (p : Pattern) (hp : p.OutputsOk) (hE : NoSelfLoop p.seq)
    (hplus : ∀ n st, Command.N n st ∈ p.seq → st = PlanarState.plus) (hdet : Deterministic p) (sp : StdPattern)
    (h : StdPattern.fromPattern p = .ok sp) (order : Rpm → Finset ℕ → List ℕ) (hord : ∀ p s x, x ∈ order p s ↔ x ∈ s)
    (nbr : StdPattern → ℕ → List ℕ) (hb : ∀ sp, NbrOk sp.eSet (nbr sp)) (edges : StdPattern → List (ℕ × ℕ))
    (he : ∀ sp, StdPattern.Enumerates (edges sp) sp.eSet) (standardize : Bool) :
    ∃ q warnings σ, p.removePauliMeasurements order nbr edges standardize = .ok (q, warnings) ∧ PauliRemovedPattern p q warnings σ ∧
      (∀ n m s t, Command.M n (.pauli m) s t ∈ q.seq → n ∈ q.inputs) ∧
      ∀ r r₀ : ℕ → Bool, ∃ c : ℂ, c ≠ 0 ∧ ∀ ψ, Absent p.preparedNodes ψ → semCmds r₀ p.seq ψ = c • ren σ (semCmds r q.seq ψ) := by
  obtain ⟨q, k, σ, h1, h2, sp', w', pl', ⟨c1, c2, c3, c3', c4, c5, c5', c6⟩, -⟩ := pattern_removed p hp hE hplus sp h order hord nbr hb edges he standardize
  have hrun : Runnable p.inputs p.seq := (fromPattern_ok h).1
  have hnz : ∀ r ψ, Absent p.preparedNodes ψ → ψ ≠ 0 → semCmds r p.seq ψ ≠ 0 := by
    intro r ψ ha hψ
    obtain ⟨r1, hr1⟩ := exists_branch hrun hψ fun n hn => ha.noBit (by unfold Pattern.preparedNodes; rw [List.mem_toFinset]; exact hn)
    obtain ⟨⟨c, -, hc⟩, -⟩ := hdet r1 r
    intro hz
    apply hr1
    rw [hc ψ ha, hz, smul_zero]
  have hone : Absent p.preparedNodes (fun _ => 1) := fun _ _ _ => rfl
  refine ⟨q, k, σ, h1, h2, ?_, ?_⟩
  · intro n m s t hm
    by_contra hn
    obtain ⟨l1, ⟨k, l2⟩, l3⟩ := h2.left n m s t hm hn
    simp only [c5', c2] at l2 l3
    have hmem : Command.M n (.pauli m) s t ∈ sp'.mList.map MCmd.toCmd := by
      rw [← c3']
      exact List.mem_filter.2 ⟨hm, by simp [Command.measured?]⟩
    obtain ⟨m', hm', e⟩ := List.mem_map.1 hmem
    obtain ⟨n', me, s', t'⟩ := m'
    simp only [MCmd.toCmd, Command.M.injEq] at e
    obtain ⟨rfl, rfl, rfl, rfl⟩ := e
    obtain ⟨edges', hen'⟩ := enumerates_exists sp'.eSet
    obtain ⟨ψ, a1, a2, a3⟩ := X_on_inputs w' pl' edges' hen' hm' rfl l1 (by rw [← c2]; exact hn) l2 l3 fun _ => false
    obtain ⟨r0, c, -, hc⟩ := h2.sem fun _ => false
    have ha : Absent p.preparedNodes ψ := by
      apply a1.absent
      intro i hi hc
      rw [← c2, h2.inputs] at hi
      have := hrun.introduced_nodup hp.inputs_nodup
      exact (List.nodup_append.1 this).2.2 i hi i (by unfold Pattern.preparedNodes at hc; rw [List.mem_toFinset] at hc; exact hc) rfl
    apply hnz r0 ψ ha a2
    rw [hc ψ ha, c6 edges' hen', a3]
    funext b; simp [ren]
  · intro r r0
    obtain ⟨r1, c, -, hc⟩ := h2.sem r
    obtain ⟨⟨d, hd, hd'⟩, -⟩ := hdet r0 r1
    refine ⟨d * c, ?_, fun ψ hψ => by rw [hd' ψ hψ, hc ψ hψ, smul_smul]⟩
    have : (fun _ => 1 : QState) ≠ 0 := fun h => by simpa using congrFun h fun _ => false
    rintro h0
    apply hnz r0 _ hone this
    rw [hd' _ hone, hc _ hone, smul_smul, h0, zero_smul]

theorem StdBody.run_append (l l' : List Command) : ∀ b : StdBody, b.run (l ++ l') = (do let b ← b.run l; b.run l') := by
  induction l with
  | nil => intro b; rfl
  | cons c l ih =>
    intro b
    change (do let b ← b.step c; b.run (l ++ l')) = (do let b ← (do let b ← b.step c; b.run l); b.run l')
    cases b.step c with
    | error e => rfl
    | ok b' => exact ih b'

theorem StdBody.run_cliffords (d : PyDict ℕ Clifford) : ∀ b : StdBody, ∃ b', b.run (d.map fun kv => Command.C kv.1 kv.2) = .ok b' := by
  induction d with
  | nil => intro b; exact ⟨b, rfl⟩
  | cons kv d ih => intro b; exact ih _

theorem fromPattern_patternCmds {q : Pattern} (hrun : q.checkRunnability = .ok ()) {ns : List ℕ} {og : OpenGraph} {meas : ℕ → Measurement}
    {xl zl : ℕ → List ℕ} {order : List ℕ} (h : q.seq = patternCmds ns og meas xl zl order) :
    ∃ sp, StdPattern.fromPattern q = .ok sp := by
  unfold StdPattern.fromPattern
  rw [hrun, h]
  unfold patternCmds
  rw [← List.append_assoc, ← List.append_assoc, StdBody.run_append]
  obtain ⟨b, hb⟩ := StdBody.run_ok_of_no_clifford (ns.map (Command.N · PlanarState.plus) ++ og.edges.map (fun e => Command.E e.1 e.2) ++
      order.flatMap (blockOf meas xl zl)) (fun n c hc => by
    simp [blockOf] at hc) StdBody.init rfl
  obtain ⟨b', hb'⟩ := StdBody.run_cliffords og.cliffords b
  rw [hb]
  simp only [bind, Except.bind, hb', pure, Except.pure]
  exact ⟨_, rfl⟩

/-- **C35** The documented claim: for a pattern with flow, all non-input Pauli measurements are removed; and every branch of the
result does what the open graph says, up to a nonzero scalar. -/
theorem C35_flow (f : Flow) (hv : f.og.Valid) (hloop : ∀ e ∈ f.og.edges, e.1 ≠ e.2) (hk : f.corr.keys.Nodup)
    (ord : SetOrd) (hord' : ord.Valid) (hf : f.checkPauli ord = .ok ())
    (order : Rpm → Finset ℕ → List ℕ) (hord : ∀ p s x, x ∈ order p s ↔ x ∈ s)
    (nbr : StdPattern → ℕ → List ℕ) (hb : ∀ sp, NbrOk sp.eSet (nbr sp)) (edges : StdPattern → List (ℕ × ℕ))
    (he : ∀ sp, StdPattern.Enumerates (edges sp) sp.eSet) (standardize : Bool) :
    ∃ xz p q warnings, ∃ σ : Equiv.Perm ℕ, f.toXZPauli ord = .ok xz ∧ xz.toPattern ord none = .ok p ∧
      p.removePauliMeasurements order nbr edges standardize = .ok (q, warnings) ∧ q.checkRunnability = .ok () ∧
      q.inputs = f.og.inputs ∧ q.outputs.map σ = f.og.outputs ∧ (∀ i ∈ f.og.inputs, σ i = i) ∧
      (∀ n m s t, Command.M n (.pauli m) s t ∈ q.seq → n ∈ f.og.inputs) ∧
      ∀ r : ℕ → Bool, ∃ c : ℂ, c ≠ 0 ∧ ∀ ψ, Absent (f.og.nodes \ f.og.inputs.toFinset) ψ →
        f.og.linMap ψ = c • ren σ (semCmds r q.seq ψ) := by
  obtain ⟨xz, h1, h2, h3, h4, h5⟩ := C30_pauliflow f hv hloop hk ord hord' hf
  obtain ⟨p, p1, p2, p3, p4, p5, p6, p7, p8, p9⟩ := h5 none (by simp)
  obtain ⟨p', q1, q2, q3, q4, -, q6, -, ns, q8, q9, q10⟩ := C31_to_pattern xz (by rw [h2]; exact hv) ord hord' h3 h4 none (by simp)
  rw [p1] at q1; cases q1
  obtain ⟨sp, hsp⟩ := fromPattern_patternCmds p2 q8
  have hE : NoSelfLoop p.seq := by
    intro u v huv
    rw [q8] at huv
    simp only [patternCmds, List.mem_append, List.mem_map, List.mem_flatMap, blockOf, List.mem_cons] at huv
    rcases huv with ⟨a, -, ha⟩ | ⟨e, he, ha⟩ | ⟨a, -, ha⟩ | ⟨a, -, ha⟩
    · cases ha
    · cases ha; exact hloop e (by rw [← h2]; exact he)
    · simp at ha
    · cases ha
  have hplus : ∀ n st, Command.N n st ∈ p.seq → st = PlanarState.plus := by
    intro n st huv
    rw [q8] at huv
    simp only [patternCmds, List.mem_append, List.mem_map, List.mem_flatMap, blockOf, List.mem_cons] at huv
    rcases huv with ⟨a, -, ha⟩ | ⟨e, he, ha⟩ | ⟨a, -, ha⟩ | ⟨a, -, ha⟩
    · cases ha; rfl
    · cases ha
    · simp at ha
    · cases ha
  obtain ⟨q, k, σ, r1, r2, r3, r4⟩ := C35_deterministic p p3 hE hplus p7 sp hsp order hord nbr hb edges he standardize
  rw [h2] at p4 p5 p6 p8
  refine ⟨xz, p, q, k, σ, h1, p1, r1, r2.runnable, by rw [r2.inputs, p4], by rw [r2.outputs, p5], fun i hi => r2.fixed i (by rw [p4]; exact hi),
    fun n m s t hm => by rw [← p4, ← r2.inputs]; exact r3 n m s t hm, fun r => ?_⟩
  obtain ⟨c, hc, e⟩ := r4 r r
  obtain ⟨d, hd, e'⟩ := p8 r
  have hd0 : d ≠ 0 := by rintro rfl; simp at hd
  refine ⟨d⁻¹ * c, mul_ne_zero (inv_ne_zero hd0) hc, fun ψ hψ => ?_⟩
  rw [← p6] at hψ
  have := e ψ hψ
  rw [e' ψ hψ] at this
  rw [← smul_smul, ← this, smul_smul, inv_mul_cancel₀ hd0, one_smul]

/-! ### Instances, and what is not preserved -/

/-- An order of enumeration. -/
def rpmOrder (_ : Rpm) (s : Finset ℕ) : List ℕ :=
  if s ⊆ Finset.range 10 then (List.range 10).filter (· ∈ s) else s.sort (· ≤ ·)

theorem rpmOrder_mem (p : Rpm) (s : Finset ℕ) (x : ℕ) : x ∈ rpmOrder p s ↔ x ∈ s := by
  unfold rpmOrder
  split
  · rename_i h
    simp only [List.mem_filter, List.mem_range, decide_eq_true_eq, and_iff_right_iff_imp]
    intro hx; simpa using h hx
  · exact Finset.mem_sort _

/-- Neighbourhoods. -/
noncomputable def rpmNbr (sp : StdPattern) (u : ℕ) : List ℕ :=
  ((sp.eSet.biUnion Sym2.toFinset).filter (fun v => s(u, v) ∈ sp.eSet)).toList

theorem rpmNbr_ok (sp : StdPattern) : NbrOk sp.eSet (rpmNbr sp) := by
  intro u
  refine ⟨Finset.nodup_toList _, fun v => ?_⟩
  unfold rpmNbr
  simp only [Finset.mem_toList, Finset.mem_filter, Finset.mem_biUnion, Sym2.mem_toFinset, and_iff_right_iff_imp]
  intro h
  exact ⟨_, h, by simp⟩

/-- Hypotheses of the theorems of this file. -/
example : ∃ edges : StdPattern → List (ℕ × ℕ), ∀ sp, StdPattern.Enumerates (edges sp) sp.eSet :=
  ⟨fun sp => (enumerates_exists sp.eSet).choose, fun sp => (enumerates_exists sp.eSet).choose_spec⟩

example : pushExample.OutputsOk ∧ (∀ n st, Command.N n st ∈ pushExample.seq → st = PlanarState.plus) ∧
    ∃ sp, StdPattern.fromPattern pushExample = .ok sp := by
  refine ⟨pushExample_outputsOk, ?_, _, rfl⟩
  intro n st h
  have h' : Command.N n st ∈ [Command.N 1 .plus, .E 0 1, .M 0 (.bloch ⟨1/4, .XY⟩) ∅ ∅, .N 2 .plus, .E 1 2,
     .M 1 (.pauli ⟨.Y, .plus⟩) {0} ∅, .X 2 {1}, .Z 2 {0}] := h
  simp at h'
  rcases h' with h' | h' <;> exact h'.2

/-- A pattern with a Pauli flow (and not a gflow) and three measurements. -/
example : ∃ xz p q warnings, ∃ σ : Equiv.Perm ℕ, exFlowP.toXZPauli exOrd = .ok xz ∧ xz.toPattern exOrd none = .ok p ∧
    p.removePauliMeasurements rpmOrder rpmNbr (fun sp => (enumerates_exists sp.eSet).choose) false = .ok (q, warnings) ∧
    q.outputs.map σ = [3] ∧ ∀ n m s t, Command.M n (.pauli m) s t ∈ q.seq → n = 0 := by
  obtain ⟨xz, p, q, k, σ, h1, h2, h3, -, -, h6, -, h8, -⟩ := C35_flow exFlowP (exOg_valid _) (exOg_loop _) (by simp [exFlowP, PyDict.keys]) exOrd exOrd_valid rfl
    rpmOrder rpmOrder_mem rpmNbr rpmNbr_ok _ (fun sp => (enumerates_exists sp.eSet).choose_spec) false
  refine ⟨xz, p, q, k, σ, h1, h2, h3, h6, fun n m s t hm => ?_⟩
  have := h8 n m s t hm
  simpa [exFlowP, exOg] using this

/-- A node without neighbours is measured in `-X`: the outcome is 1 with certainty. -/
noncomputable def isoExample : Pattern :=
  (Pattern.empty []).extend [.N 0 .plus, .N 1 .plus, .M 0 (.pauli ⟨.X, .minus⟩) ∅ ∅, .Z 1 {0}]

/-- Its standardized form. -/
noncomputable def isoSP : StdPattern := ⟨⟨[(0, .plus), (1, .plus)], ∅, [⟨0, .pauli ⟨.X, .minus⟩, ∅, ∅⟩], [(1, {0})], [], []⟩, [], [1]⟩

theorem isoSP_result : removePauliMeasurements rpmOrder (PauliCut.ofStd ∅ isoSP) isoSP =
    .ok (⟨⟨[(1, .plus)], ∅, [], [], [], []⟩, [], [1]⟩, 1) := by
  unfold removePauliMeasurements Rpm.mainLoop
  rfl

theorem enumerates_empty {edges : List (ℕ × ℕ)} (h : StdPattern.Enumerates edges ∅) : edges = [] := by
  have := h.2
  simpa using this

/-- **C35** Isolated nodes: `isoExample` prepares `|-⟩` on node 1, with certainty, but the result prepares `|+⟩` (and the warning about a
"Non-Pauli measurement" is emitted although node 0 is Pauli-measured). -/
theorem C35_isolated_wrong (nbr : StdPattern → ℕ → List ℕ) (edges : StdPattern → List (ℕ × ℕ))
    (he : ∀ sp, StdPattern.Enumerates (edges sp) sp.eSet) :
    ∃ q, isoExample.removePauliMeasurements rpmOrder nbr edges true = .ok (q, 1) ∧ q.outputs = isoExample.outputs ∧
      ∀ r ψ, Absent {0, 1} ψ → semCmds r isoExample.seq ψ ≠ 0 → ∀ r' (c : ℂ), semCmds r isoExample.seq ψ ≠ c • semCmds r' q.seq ψ := by
  have h1 : isoExample.removePauliMeasurements rpmOrder nbr edges true = .ok (⟨[], 1, [.N 1 .plus], [1]⟩, 1) := by
    unfold Pattern.removePauliMeasurements
    have h0 : StdPattern.fromPattern isoExample = .ok isoSP := rfl
    simp only [h0, bind, Except.bind, isoSP_result, enumerates_empty (he ⟨⟨[(1, .plus)], ∅, [], [], [], []⟩, [], [1]⟩)]
    rfl
  refine ⟨_, h1, rfl, ?_⟩
  intro r ψ hψ hne r' c heq
  apply hne
  have n0 : NoBit 0 ψ := hψ.noBit (by simp)
  have n1 : NoBit 1 ψ := hψ.noBit (by simp)
  have hseq : isoExample.seq = [.N 0 .plus, .N 1 .plus, .M 0 (.pauli ⟨.X, .minus⟩) ∅ ∅, .Z 1 {0}] := rfl
  rw [hseq] at heq ⊢
  simp only [semCmds_cons, semCmds_nil, Command.sem, prep_plus, parity_empty, parity_singleton] at heq ⊢
  have hL : ∀ b, op1 (powB Ops.Z (r 0)) 1 (projOut 0 (measVec (.pauli ⟨.X, .minus⟩) (r 0)) (op1 (powB Ops.X false) 0 (op1 (powB Ops.Z false) 0
      ((1 / (Real.sqrt 2 : ℂ)) • (1 / (Real.sqrt 2 : ℂ)) • ψ)))) b =
      sgn (r 0 && b 1) * (1 - sgn (r 0)) * (1 / (Real.sqrt 2 : ℂ)) ^ 3 * ψ b := by
    intro b
    rw [op1_powB_Z]
    simp only [powB, Bool.false_eq_true, if_false, op1_one, projOut, measVec_X, Pi.smul_apply, smul_eq_mul, n0 b]
    cases r 0 <;> simp <;> ring
  have hpt := fun b => (hL b).symm.trans (congrFun heq b)
  have hz : ∀ b, (1 - sgn (r 0)) * ψ b = 0 := by
    intro b
    have h0 := hpt (update b 1 false)
    have h1 := hpt (update b 1 true)
    simp only [update_self, n1 b, Pi.smul_apply, smul_eq_mul, Bool.and_false, Bool.and_true, sgn_false] at h0 h1
    have hq : (1 / (Real.sqrt 2 : ℂ)) ^ 3 ≠ 0 := pow_ne_zero _ (one_div_ne_zero sqrt2_ne)
    cases hr : r 0
    · simp
    · rw [hr] at h0 h1
      simp only [sgn_true] at h0 h1
      have : (1 / (Real.sqrt 2 : ℂ)) ^ 3 * ψ b = 0 := by linear_combination (h0 - h1) / 4
      rcases mul_eq_zero.1 this with h | h
      · exact absurd h hq
      · rw [h, mul_zero]
  funext b
  rw [hL b]
  have := hz b
  show _ = (0 : ℂ)
  linear_combination sgn (r 0 && b 1) * (1 / (Real.sqrt 2 : ℂ)) ^ 3 * this

/-- A pattern that prepares node 0 in `|0⟩`. -/
noncomputable def zeroExample : Pattern :=
  (Pattern.empty []).extend [.N 0 ⟨.XZ, 0⟩, .N 1 .plus, .E 0 1, .M 0 (.pauli ⟨.Y, .plus⟩) ∅ ∅]

/-- Its standardized form. -/
noncomputable def zeroSP : StdPattern := ⟨⟨[(0, ⟨.XZ, 0⟩), (1, .plus)], {s(0, 1)}, [⟨0, .pauli ⟨.Y, .plus⟩, ∅, ∅⟩], [], [], []⟩, [], [1]⟩

theorem zeroSP_result : ∃ C, removePauliMeasurements rpmOrder (PauliCut.ofStd ∅ zeroSP) zeroSP =
    .ok (⟨⟨[(1, .plus)], ∅, [], [], [], [(1, C)]⟩, [], [1]⟩, 0) ∧ C = Clifford.S := by
  unfold removePauliMeasurements Rpm.mainLoop
  exact ⟨_, rfl, rfl⟩

/-- **C35** The hypothesis on the preparations is needed, and `remove_pauli_measurements` does not check it: `zeroExample` prepares `|+⟩` on
node 1 in both branches, but the result prepares `S|+⟩`, without a warning. -/
theorem C35_not_plus_wrong (nbr : StdPattern → ℕ → List ℕ) (edges : StdPattern → List (ℕ × ℕ))
    (he : ∀ sp, StdPattern.Enumerates (edges sp) sp.eSet) :
    ∃ q, zeroExample.removePauliMeasurements rpmOrder nbr edges true = .ok (q, 0) ∧ q.outputs = zeroExample.outputs ∧
      ∀ r ψ, Absent {0, 1} ψ → semCmds r zeroExample.seq ψ ≠ 0 → ∀ r' (c : ℂ), semCmds r zeroExample.seq ψ ≠ c • semCmds r' q.seq ψ := by
  obtain ⟨C, hres, rfl⟩ := zeroSP_result
  have h1 : zeroExample.removePauliMeasurements rpmOrder nbr edges true = .ok (⟨[], 1, [.N 1 .plus, .C 1 Clifford.S], [1]⟩, 0) := by
    unfold Pattern.removePauliMeasurements
    have h0 : StdPattern.fromPattern zeroExample = .ok zeroSP := by
      have : (∅ : Finset (Sym2 ℕ)) ∆ {s(0, 1)} = {s(0, 1)} := by decide
      unfold zeroSP
      rw [← this]
      rfl
    simp only [h0, bind, Except.bind, hres, enumerates_empty (he ⟨⟨[(1, .plus)], ∅, [], [], [], [(1, Clifford.S)]⟩, [], [1]⟩)]
    rfl
  refine ⟨_, h1, rfl, ?_⟩
  intro r ψ hψ hne r' c heq
  apply hne
  have n0 : NoBit 0 ψ := hψ.noBit (by simp)
  have n1 : NoBit 1 ψ := hψ.noBit (by simp)
  have hseq : zeroExample.seq = [.N 0 ⟨.XZ, 0⟩, .N 1 .plus, .E 0 1, .M 0 (.pauli ⟨.Y, .plus⟩) ∅ ∅] := rfl
  rw [hseq] at heq ⊢
  simp only [semCmds_cons, semCmds_nil, Command.sem, prep_plus, parity_empty] at heq ⊢
  set v := measVec (.pauli ⟨.Y, .plus⟩) (r 0) with hv
  have hL : ∀ b, projOut 0 v (op1 (powB Ops.X false) 0 (op1 (powB Ops.Z false) 0 (cz 0 1
      ((1 / (Real.sqrt 2 : ℂ)) • prep 0 (PlanarState.vec ⟨.XZ, 0⟩) ψ)))) b = star (v false) * (1 / (Real.sqrt 2 : ℂ)) * ψ b := by
    intro b
    simp only [powB, Bool.false_eq_true, if_false, op1_one, projOut, Pi.smul_apply, smul_eq_mul, prep, cz, n0 b, update_self]
    simp [PlanarState.vec, planarState]
    ring
  have hR : ∀ b, (c • op1 Clifford.S.matrix 1 ((1 / (Real.sqrt 2 : ℂ)) • ψ)) b = c * (if b 1 then Complex.I else 1) * (1 / (Real.sqrt 2 : ℂ)) * ψ b := by
    intro b
    simp only [Pi.smul_apply, smul_eq_mul, op1, n1 b, Clifford.matrix_S, Ops.S]
    cases b 1 <;> simp <;> ring
  have hpt := fun b => ((hL b).symm.trans (congrFun heq b)).trans (hR b)
  funext b
  rw [hL b]
  have h0 := hpt (update b 1 false)
  have h1 := hpt (update b 1 true)
  simp only [update_self, n1 b, Bool.false_eq_true, if_false, if_true] at h0 h1
  have hI : (1 - Complex.I) ≠ 0 := by
    intro h
    have := congrArg Complex.re h
    simp at this
  have : (1 - Complex.I) * (star (v false) * (1 / (Real.sqrt 2 : ℂ)) * ψ b) = 0 := by linear_combination h1 - Complex.I * h0
  exact (mul_eq_zero.1 this).resolve_left hI

/-- Some branch of each of the two patterns is possible. -/
example : (∃ r, semCmds r isoExample.seq (fun _ => 1) ≠ 0) ∧ ∃ r, semCmds r zeroExample.seq (fun _ => 1) ≠ 0 := by
  have h1 : isoExample.checkRunnability = .ok () := rfl
  have h2 : zeroExample.checkRunnability = .ok () := rfl
  have hne : (fun _ => 1 : QState) ≠ 0 := fun h => by simpa using congrFun h fun _ => false
  exact ⟨exists_branch ((checkRunnability_iff _).1 h1) hne fun _ _ _ _ => rfl, exists_branch ((checkRunnability_iff _).1 h2) hne fun _ _ _ _ => rfl⟩

end Graphix
