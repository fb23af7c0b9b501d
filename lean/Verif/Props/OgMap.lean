import Verif.Proofs.OgMap
import Verif.Props.PatternMap
import Verif.Proofs.OgComposeSem

/-!
# C68: measurement-wise transformations and comparisons of open graphs

`map`, `to_bloch`, `infer_pauli_measurements`, `isclose`, `is_equal_structurally`, `to_circuit`, `with_parameter(s)`.
-/

namespace Graphix

/-! ### `map` -/

/-- **C68** `og.map(f)` builds an open graph with the same graph, inputs, outputs and Cliffords, where the measurement `m` of every
node is replaced by `f(m)`. -/
theorem C68_map (og : OpenGraph) (hv : og.Valid) (f : Measurement → Except PyErr Measurement) (g : Measurement → Measurement)
    (hf : ∀ kv ∈ og.measurements, f kv.2 = .ok (g kv.2)) :
    ∃ og', og.map f = .ok og' ∧ og'.Valid ∧ og'.nodes = og.nodes ∧ og'.edges = og.edges ∧ og'.inputs = og.inputs ∧
      og'.outputs = og.outputs ∧ og'.cliffords = og.cliffords ∧
      ∀ v, og'.measurements.get? v = (og.measurements.get? v).map g :=
  ⟨og.onMeas g, OpenGraph.map_ok hv hf, (og.onMeas_shape g).valid hv, rfl, rfl, rfl, rfl, rfl, fun _ => PyDict.get?_mapVal _ _ _⟩

/-- **C68** If `f` raises on a measurement of the open graph (and raises only exceptions of one kind), `map` raises. -/
theorem C68_map_raises (og : OpenGraph) (f : Measurement → Except PyErr Measurement) (e : PyErr)
    (hf : ∀ m e', f m = .error e' → e' = e) {v : ℕ} {m : Measurement} (hm : og.measurements.get? v = some m) (he : f m = .error e) :
    og.map f = .error e := by
  unfold OpenGraph.map
  rw [mapVal_error og.measurements hf (PyDict.mem_of_get? hm) he]
  rfl

/-! ### `to_bloch` -/

/-- **C68** `og.to_bloch()` always succeeds; all its measurements are Bloch measurements, and it stands for the same map. -/
theorem C68_to_bloch (og : OpenGraph) (hv : og.Valid) :
    ∃ og', og.toBloch = .ok og' ∧ og'.Valid ∧ og.SameShape og' ∧ (∀ kv ∈ og'.measurements, ∃ b, kv.2 = .bloch b) ∧
      OpPhaseEq og'.linMap og.linMap := by
  refine ⟨og.onMeas fun m => .bloch m.toBloch, OpenGraph.map_ok hv fun _ _ => rfl, (og.onMeas_shape _).valid hv, og.onMeas_shape _, ?_,
    OpenGraph.onMeas_linMap hv fun kv _ => C06_to_bloch kv.2⟩
  intro kv hkv
  obtain ⟨kv', -, rfl⟩ := List.mem_map.1 hkv
  exact ⟨_, rfl⟩

/-- **C68** Every gflow (and every Pauli flow) of `og.to_bloch()` is a Pauli flow of `og`, with the same layers. -/
theorem C68_bloch_flow (og og' : OpenGraph) (hv : og.Valid) (h : og.toBloch = .ok og') (corr : PyDict ℕ (Finset ℕ))
    (layers : List (Finset ℕ)) :
    (IsGFlow ⟨og', corr, layers⟩ → IsPauliFlow ⟨og, corr, layers⟩) ∧
      (IsPauliFlow ⟨og', corr, layers⟩ → IsPauliFlow ⟨og, corr, layers⟩) := by
  have e : og.toBloch = .ok (og.onMeas fun m => .bloch m.toBloch) := OpenGraph.map_ok hv fun _ _ => rfl
  obtain rfl : og' = og.onMeas fun m => .bloch m.toBloch := by rw [h] at e; exact Except.ok.inj e
  have hs := og.onMeas_shape fun m => .bloch m.toBloch
  have hr : (og.onMeas fun m => .bloch m.toBloch).Refined og := by
    refine ⟨⟨rfl, rfl, rfl, rfl, rfl, hs.keys.symm⟩, fun v l' hl => ?_⟩
    obtain ⟨m, hm, rfl⟩ := hl
    exact ⟨_, ⟨.bloch m.toBloch, (PyDict.get?_mapVal _ (fun m : Measurement => Measurement.bloch m.toBloch) v).trans (by rw [hm]; rfl), rfl⟩, toBloch_refines m⟩
  have hp : IsPauliFlow ⟨_, corr, layers⟩ → IsPauliFlow ⟨og, corr, layers⟩ := hr.flow (hs.valid hv)
  exact ⟨fun hg => hp (hg.isPauliFlow (hs.valid hv)), hp⟩

theorem XZCorrections.measureCmds_onMeas (xz : XZCorrections) (g : Measurement → Measurement) (ord : SetOrd) (l : List ℕ) :
    (XZCorrections.mk (xz.og.onMeas g) xz.x xz.z xz.layers).measureCmds ord l = (xz.measureCmds ord l).map (List.map (Command.onMeas g)) := by
  induction l with
  | nil => rfl
  | cons n l ih =>
    unfold XZCorrections.measureCmds
    rw [ih]
    simp only [OpenGraph.onMeas, PyDict.get?_mapVal]
    cases h : xz.og.measurements.get? n with
    | none => rfl
    | some m =>
      cases h2 : xz.measureCmds ord l with
      | error e => rfl
      | ok rest =>
        simp only [Option.map_some, bind, Except.bind, pure, Except.pure, Except.map, List.map_cons, List.map_append, List.map_map]
        rfl

/-- **C68** `to_bloch` of XZ-corrections keeps the corrections and the order; the pattern does the same in every branch. -/
theorem C68_xz_to_bloch (xz : XZCorrections) (hv : xz.og.Valid) :
    ∃ xz', xz.toBloch = .ok xz' ∧ xz.og.toBloch = .ok xz'.og ∧ xz'.x = xz.x ∧ xz'.z = xz.z ∧ xz'.layers = xz.layers ∧
      ∀ (ord : SetOrd) (order : Option (List ℕ)) (q : Pattern), xz.toPattern ord order = .ok q →
        ∃ q', xz'.toPattern ord order = .ok q' ∧ q'.inputs = q.inputs ∧ q'.outputs = q.outputs ∧ q'.seq.length = q.seq.length ∧
          (∀ n m s t, Command.M n m s t ∈ q'.seq → ∃ b, m = .bloch b) ∧ ∀ r, OpPhaseEq (semCmds r q'.seq) (semCmds r q.seq) := by
  set g : Measurement → Measurement := fun m => .bloch m.toBloch with hg
  have e : xz.og.toBloch = .ok (xz.og.onMeas g) := OpenGraph.map_ok hv fun _ _ => rfl
  refine ⟨⟨xz.og.onMeas g, xz.x, xz.z, xz.layers⟩, ?_, e, rfl, rfl, rfl, ?_⟩
  · unfold XZCorrections.toBloch
    rw [e]; rfl
  intro ord order q hq
  have build : ∀ order, xz.buildPattern ord order = .ok q → ∃ q', (XZCorrections.mk (xz.og.onMeas g) xz.x xz.z xz.layers).buildPattern ord order = .ok q' ∧
      q'.inputs = q.inputs ∧ q'.outputs = q.outputs ∧ q'.seq = q.seq.map (Command.onMeas g) := by
    intro order h
    unfold XZCorrections.buildPattern at h ⊢
    obtain ⟨ms, h1, h⟩ := (bind_ok_iff _ _ _).1 h
    rw [XZCorrections.measureCmds_onMeas, h1]
    unfold Pattern.reorderOutputNodes at h ⊢
    obtain ⟨_, h2, h⟩ := (bind_ok_iff _ _ _).1 h
    cases h
    have hc : ∀ a b c d : List Command, a.map (Command.onMeas g) = a → b.map (Command.onMeas g) = b → d.map (Command.onMeas g) = d →
        a ++ (b ++ (c.map (Command.onMeas g) ++ d)) = (a ++ (b ++ (c ++ d))).map (Command.onMeas g) := by
      intro a b c d h1 h2 h3
      simp only [List.map_append, h1, h2, h3]
    simp only [Except.map, bind, Except.bind, OpenGraph.onMeas]
    rw [hc, onMeas_extend]
    · simp only [h2]
      refine ⟨_, rfl, rfl, rfl, ?_⟩
      simp only [(C08_count xz.og.inputs _).1]
    · simp [Command.onMeas]
    · simp [Command.onMeas]
    · simp [Command.onMeas]
  have fin : ∀ q' : Pattern, q'.inputs = q.inputs ∧ q'.outputs = q.outputs ∧ q'.seq = q.seq.map (Command.onMeas g) →
      q'.inputs = q.inputs ∧ q'.outputs = q.outputs ∧ q'.seq.length = q.seq.length ∧
          (∀ n m s t, Command.M n m s t ∈ q'.seq → ∃ b, m = .bloch b) ∧ ∀ r, OpPhaseEq (semCmds r q'.seq) (semCmds r q.seq) := by
    rintro q' ⟨a, b, c⟩
    refine ⟨a, b, by rw [c, List.length_map], fun n m s t hm => ?_, fun r => ?_⟩
    · rw [c] at hm
      obtain ⟨c', -, hc'⟩ := List.mem_map.1 hm
      cases c' <;> simp [Command.onMeas] at hc'
      exact ⟨_, hc'.2.1.symm⟩
    · rw [c]
      exact onMeas_semCmds r _ fun n m s t _ => C06_to_bloch m
  unfold XZCorrections.toPattern at hq ⊢
  cases order with
  | none =>
    obtain ⟨o, h1, h2⟩ := (bind_ok_iff _ _ _).1 hq
    obtain ⟨q', h3, h4⟩ := build o h2
    refine ⟨q', ?_, fin q' h4⟩
    have : (XZCorrections.mk (xz.og.onMeas g) xz.x xz.z xz.layers).generateTotalMeasurementOrder ord = xz.generateTotalMeasurementOrder ord := rfl
    simp only [this, h1, bind, Except.bind, h3]
  | some order =>
    obtain ⟨c, h1, h2⟩ := (bind_ok_iff _ _ _).1 hq
    have : (XZCorrections.mk (xz.og.onMeas g) xz.x xz.z xz.layers).isCompatible order = xz.isCompatible order := rfl
    cases c with
    | false => cases h2
    | true =>
      obtain ⟨q', h3, h4⟩ := build order h2
      refine ⟨q', ?_, fin q' h4⟩
      simp only [this, h1, bind, Except.bind, if_true, h3]

/-! ### `infer_pauli_measurements` -/

/-- **C68** For all nonnegative tolerances, `infer_pauli_measurements` succeeds and changes only the measurements, as `InferSpec`
says. No flow is lost: every Pauli flow of the open graph is, as it is, a Pauli flow of the new one. -/
theorem C68_infer (og : OpenGraph) (hv : og.Valid) {rel abs' : ℝ} (hr : 0 ≤ rel) (ha : 0 ≤ abs') :
    ∃ og', og.inferPauliMeasurements rel abs' = .ok og' ∧ og'.Valid ∧ og.SameShape og' ∧
      (∀ v m, og.measurements.get? v = some m → ∃ m', og'.measurements.get? v = some m' ∧ InferSpec rel abs' m m') ∧
      (∀ corr layers, IsPauliFlow ⟨og, corr, layers⟩ → IsPauliFlow ⟨og', corr, layers⟩) ∧
      (HasPauliFlow og → HasPauliFlow og') := by
  choose g hg1 hg2 using C65_to_pauli_or_bloch (rel := rel) (abs' := abs') hr ha
  have hs := og.onMeas_shape g
  have href : og.Refined (og.onMeas g) := by
    refine ⟨hs, fun v l' hl => ?_⟩
    obtain ⟨m', hm', rfl⟩ := hl
    simp only [OpenGraph.onMeas, PyDict.get?_mapVal] at hm'
    obtain ⟨m, hm, rfl⟩ := Option.map_eq_some_iff.1 hm'
    exact ⟨_, ⟨m, hm, rfl⟩, InferSpec.refines (hg1 m) hr ha⟩
  refine ⟨og.onMeas g, OpenGraph.map_ok hv fun kv _ => hg1 kv.2, hs.valid hv, hs, fun v m hm => ⟨g m, ?_, hg2 m⟩,
    fun corr layers hf => href.flow hv hf, fun ⟨p, lt, hf⟩ => ⟨p, lt, href.flowOf hv hf⟩⟩
  simp only [OpenGraph.onMeas, PyDict.get?_mapVal, hm, Option.map_some]

/-- **C68** With tolerance zero the open graph stands for the same map. -/
theorem C68_infer_exact (og og' : OpenGraph) (hv : og.Valid) (h : og.inferPauliMeasurements 0 0 = .ok og') :
    OpPhaseEq og'.linMap og.linMap := by
  choose g hg1 hg2 using C65_to_pauli_or_bloch (rel := 0) (abs' := 0) le_rfl le_rfl
  have e : og.inferPauliMeasurements 0 0 = .ok (og.onMeas g) := OpenGraph.map_ok hv fun kv _ => hg1 kv.2
  obtain rfl : og' = og.onMeas g := by rw [h] at e; exact Except.ok.inj e
  refine OpenGraph.onMeas_linMap hv fun kv _ => ?_
  have hs := hg2 kv.2
  generalize kv.2 = m at hs
  generalize g m = m' at hs
  cases m with
  | pauli m => simp only [InferSpec] at hs; rw [hs]
  | bloch m =>
    cases m' with
    | bloch m' => obtain ⟨rfl, -⟩ := hs; rfl
    | pauli m' =>
      obtain ⟨k, h1, -, h3⟩ := hs
      rw [h3]
      simp only [zero_mul, max_self] at h1
      have : 2 * m.angle = k := sub_eq_zero.1 (abs_eq_zero.1 (le_antisymm h1 (abs_nonneg _)))
      have : (k : ℝ) / 2 = m.angle := by linarith
      rw [this]

/-- **C68** A negative tolerance raises `ValueError` as soon as there is a Bloch measurement. -/
theorem C68_infer_negative (og : OpenGraph) {rel abs' : ℝ} (h : rel < 0 ∨ abs' < 0) {v : ℕ} {b : BlochMeasurement}
    (hm : og.measurements.get? v = some (.bloch b)) : og.inferPauliMeasurements rel abs' = .error .valueError := by
  refine C68_map_raises og _ _ (fun m e' he => ?_) hm ?_
  · cases m with
    | pauli m => cases he
    | bloch m =>
      simp only [Measurement.toPauliOrBlochTol, toPauliOrNoneTol_neg m h, bind, Except.bind] at he
      exact (Except.error.inj he).symm
  · simp only [Measurement.toPauliOrBlochTol, toPauliOrNoneTol_neg b h, bind, Except.bind]

/-- **C68** Inferring the Pauli measurements (tolerance zero) before `to_pattern`: if `og.to_pattern()` succeeds, then so does
`og.infer_pauli_measurements(0, 0).to_pattern()`; and whenever the latter succeeds, its pattern implements the map of `og`. -/
theorem C68_infer_to_pattern (og og' : OpenGraph) (hv : og.Valid) (hloop : ∀ v, (v, v) ∉ og.edges)
    (h : og.inferPauliMeasurements 0 0 = .ok og') (ord : SetOrd) (hord : ord.Valid) (mmo : MulOrd) (hmmo : mmo.Valid) :
    ((∃ q, og.toPattern ord mmo = .ok q) → ∃ q, og'.toPattern ord mmo = .ok q) ∧
      ∀ q, og'.toPattern ord mmo = .ok q → Implements q og := by
  obtain ⟨og'', e, hv', hs, -, -, hf⟩ := C68_infer og hv (le_refl (0 : ℝ)) (le_refl (0 : ℝ))
  obtain rfl : og'' = og' := by rw [h] at e; exact (Except.ok.inj e).symm
  have hloop' : ∀ v, (v, v) ∉ og''.edges := by rw [hs.edges]; exact hloop
  have hm := C68_infer_exact og og'' hv h
  rcases C53_to_pattern og'' hv' hloop' ord hord mmo hmmo with ⟨hp, q, hq, hi⟩ | ⟨hno, herr⟩
  · refine ⟨fun _ => ⟨q, hq⟩, fun q' hq' => ?_⟩
    obtain rfl : q = q' := by rw [hq] at hq'; exact Except.ok.inj hq'
    obtain ⟨i1, i2, i3, i4, i5, i6, i7, i8⟩ := hi
    refine ⟨i1, i2, i3.trans hs.inputs, i4.trans hs.outputs, by rw [i5, hs.nodes, hs.inputs], i6, fun r => (i7 r).trans (hm.on _), ?_⟩
    rw [hs.cliffords] at i8; exact i8
  · refine ⟨fun ⟨q, hq⟩ => ?_, fun q' hq' => ?_⟩
    · rcases C53_to_pattern og hv hloop ord hord mmo hmmo with ⟨hp, -⟩ | ⟨-, herr'⟩
      · exact (hno (hf hp)).elim
      · rw [hq] at herr'; cases herr'
    · rw [hq'] at herr; cases herr

/-- The open graph of the examples: two nodes joined by an edge, both measured in the XY plane. -/
noncomputable def exTwo (a b : Measurement) : OpenGraph := ⟨{0, 1}, [(0, 1)], [], [], [(0, a), (1, b)], []⟩

theorem exTwo_valid (a b : Measurement) : (exTwo a b).Valid where
  post := rfl
  edge_mem := by simp [exTwo]
  edge_once := by simp [exTwo]
  meas_keys := by simp [exTwo, PyDict.keys]
  clif_keys := by simp [exTwo, PyDict.keys]

/-- **C68** The documentation tells to infer Pauli measurements before looking for a Pauli flow, and with reason: there is an open
graph without Pauli flow that has one after `infer_pauli_measurements()` (with any tolerances). -/
theorem C68_infer_gains : ∃ og : OpenGraph, og.Valid ∧ ¬ HasPauliFlow og ∧
    ∀ rel abs' : ℝ, 0 ≤ rel → 0 ≤ abs' → ∃ og', og.inferPauliMeasurements rel abs' = .ok og' ∧ HasPauliFlow og' := by
  refine ⟨exTwo (.bloch ⟨3 / 10, .XY⟩) (.bloch ⟨0, .XY⟩), exTwo_valid _ _, ?_, ?_⟩
  · rintro ⟨p, lt, hf⟩
    have hodd : ∀ (s : Finset ℕ) (u w : ℕ), (∀ v, (exTwo (.bloch ⟨3 / 10, .XY⟩) (.bloch ⟨0, .XY⟩)).Adj u v → v = w) →
        (exTwo (.bloch ⟨3 / 10, .XY⟩) (.bloch ⟨0, .XY⟩)).InOdd s u → w ∈ s := by
      intro s u w h ho
      obtain ⟨v, hv⟩ := Finset.card_pos.1 ho.pos
      rw [Finset.mem_filter] at hv
      exact h v hv.2 ▸ hv.1
    have l0 : (exTwo (.bloch ⟨3 / 10, .XY⟩) (.bloch ⟨0, .XY⟩)).HasLabel 0 (.plane .XY) := ⟨_, rfl, rfl⟩
    have l1 : (exTwo (.bloch ⟨3 / 10, .XY⟩) (.bloch ⟨0, .XY⟩)).HasLabel 1 (.plane .XY) := ⟨_, rfl, rfl⟩
    have n0 : ∀ a, ¬ (exTwo (.bloch ⟨3 / 10, .XY⟩) (.bloch ⟨0, .XY⟩)).HasLabel 0 (.axis a) := fun a h => by cases h.unique l0
    have n1 : ∀ a, ¬ (exTwo (.bloch ⟨3 / 10, .XY⟩) (.bloch ⟨0, .XY⟩)).HasLabel 1 (.axis a) := fun a h => by cases h.unique l1
    have m0 : 0 ∈ (exTwo (.bloch ⟨3 / 10, .XY⟩) (.bloch ⟨0, .XY⟩)).nodes := by simp [exTwo]
    have m1 : 1 ∈ (exTwo (.bloch ⟨3 / 10, .XY⟩) (.bloch ⟨0, .XY⟩)).nodes := by simp [exTwo]
    have o : ∀ u, u ∉ (exTwo (.bloch ⟨3 / 10, .XY⟩) (.bloch ⟨0, .XY⟩)).outputs := by simp [exTwo]
    have a1 := hodd _ 0 1 (by simp [exTwo, OpenGraph.Adj]) (hf.p4 0 m0 (o 0) l0).2
    have a0 := hodd _ 1 0 (by simp [exTwo, OpenGraph.Adj]) (hf.p4 1 m1 (o 1) l1).2
    have b1 := hf.p1 0 m0 (o 0) 1 a1 (by decide) (n1 _) (n1 _)
    have b0 := hf.p1 1 m1 (o 1) 0 a0 (by decide) (n0 _) (n0 _)
    exact hf.irrefl _ (hf.trans _ _ _ b1 b0)
  · intro rel abs' hr ha
    set og := exTwo (.bloch ⟨3 / 10, .XY⟩) (.bloch ⟨0, .XY⟩) with hog
    obtain ⟨og', e, hv', hs, hspec, -, -⟩ := C68_infer og (exTwo_valid _ _) hr ha
    refine ⟨og', e, ?_⟩
    -- node 1 has become a measurement of X
    obtain ⟨m1, g1, s1⟩ := hspec 1 (.bloch ⟨0, .XY⟩) rfl
    have e1 : m1 = .pauli ⟨.X, .plus⟩ := by
      refine C65_infer_complete hr ha _ _ _ ?_ s1
      have := observable_quarterPauli .XY 0
      simpa [quarterPauli, Plane.cos, Sign.minusIf] using this.symm
    subst e1
    have href : (exTwo (.bloch ⟨3 / 10, .XY⟩) (.pauli ⟨.X, .plus⟩)).Refined og' := by
      refine ⟨⟨hs.nodes, hs.edges, hs.inputs, hs.outputs, hs.cliffords, hs.keys⟩, fun v l' hl => ?_⟩
      obtain ⟨m', hm', rfl⟩ := hl
      have hk : v ∈ og.measurements.keys := by rw [← hs.keys]; exact (PyDict.get?_isSome_iff _ _).1 (by rw [hm']; rfl)
      have hk : v = 0 ∨ v = 1 := by simpa [hog, exTwo, PyDict.keys] using hk
      rcases hk with rfl | rfl
      · obtain ⟨m0, g0, s0⟩ := hspec 0 (.bloch ⟨3 / 10, .XY⟩) rfl
        obtain ⟨m0', t0, -⟩ := C65_to_pauli_or_bloch hr ha (.bloch ⟨3 / 10, .XY⟩)
        have : og.inferPauliMeasurements rel abs' = .ok og' := e
        obtain ⟨m0'', t0', -⟩ := C65_to_pauli_or_bloch hr ha (.bloch ⟨0, .XY⟩)
        simp only [OpenGraph.inferPauliMeasurements, OpenGraph.map, hog, exTwo, List.mapM_cons, List.mapM_nil, t0, t0', bind, Except.bind, pure, Except.pure] at this
        split at this
        · cases this
        · obtain rfl := Except.ok.inj this
          have : m' = m0' := by
            have : PyDict.get? [(0, m0'), (1, m0'')] 0 = some m' := hm'
            simpa [PyDict.get?_cons] using this.symm
          subst this
          exact ⟨_, ⟨_, rfl, rfl⟩, InferSpec.refines t0 hr ha⟩
      · rw [hm'] at g1
        obtain rfl := Option.some.inj g1
        exact ⟨_, ⟨_, rfl, rfl⟩, Or.inl rfl⟩
    have hflow : IsPauliFlow ⟨exTwo (.bloch ⟨3 / 10, .XY⟩) (.pauli ⟨.X, .plus⟩), [(0, {1}), (1, {0})], [{0}, {1}]⟩ :=
      (C29_pauliflow _ (exTwo_valid _ _) (by simp [PyDict.keys]) exOrd exOrd_valid).1 (by with_unfolding_all rfl)
    exact (href.flow (exTwo_valid _ _) hflow).has

/-! ### `isclose` and `is_equal_structurally` -/

/-- What `Measurement.isclose` is documented to decide: the same plane and close angles, or the same Pauli measurement. -/
def CloseSpec (relTol absTol : ℝ) : Measurement → Measurement → Prop
  | .bloch a, .bloch b => |a.angle - b.angle| ≤ max (relTol * max |a.angle| |b.angle|) absTol ∧ a.plane = b.plane
  | .pauli a, .pauli b => a = b
  | _, _ => False

/-- **C68** `m.isclose(m')` decides whether the planes are equal and the angles close; a Bloch measurement is never close to a Pauli
measurement. -/
theorem C68_measurement_isclose {rel abs' : ℝ} (hr : 0 ≤ rel) (ha : 0 ≤ abs') (m m' : Measurement) :
    ∃ b, m.iscloseTol rel abs' m' = .ok b ∧ (b = true ↔ CloseSpec rel abs' m m') := by
  cases m with
  | bloch a =>
    cases m' with
    | bloch b =>
      refine ⟨_, by simp only [Measurement.iscloseTol, mathIsClose_iff hr ha, bind, Except.bind, pure, Except.pure]; rfl, ?_⟩
      simp [CloseSpec]
    | pauli b => exact ⟨_, rfl, by simp [CloseSpec]⟩
  | pauli a =>
    cases m' with
    | bloch b => exact ⟨_, rfl, by simp [CloseSpec]⟩
    | pauli b => exact ⟨_, rfl, by simp [CloseSpec]⟩

/-- The two open graphs have the same nodes and edges, the same inputs and outputs in the same order, and the same Cliffords. -/
structure SameStructure (og other : OpenGraph) : Prop where
  nodes : og.nodes = other.nodes
  edges : ∀ u v, og.Adj u v ↔ other.Adj u v
  inputs : og.inputs = other.inputs
  outputs : og.outputs = other.outputs
  cliffords : ∀ v, og.cliffords.get? v = other.cliffords.get? v

theorem PyDict.dictEq_iff {α β : Type} [DecidableEq α] [DecidableEq β] {a b : PyDict α β} (ha : a.keys.Nodup) (hb : b.keys.Nodup) :
    a.dictEq b = true ↔ ∀ k, a.get? k = b.get? k := by
  unfold PyDict.dictEq
  rw [Bool.and_eq_true, decide_eq_true_eq, List.all_eq_true]
  simp only [decide_eq_true_eq]
  constructor
  · rintro ⟨hlen, h⟩ k
    have hsub : a.keys ⊆ b.keys := by
      intro k hk
      obtain ⟨kv, hkv, rfl⟩ := List.mem_map.1 hk
      exact (PyDict.get?_isSome_iff _ _).1 (by rw [h kv hkv]; rfl)
    have hperm : a.keys.Perm b.keys :=
      (List.subperm_of_subset ha hsub).perm_of_length_le (by simp [PyDict.keys, hlen])
    cases hk : a.get? k with
    | some v => exact (h _ (PyDict.mem_of_get? hk)).symm
    | none =>
      rw [eq_comm, PyDict.get?_eq_none_iff]
      rw [PyDict.get?_eq_none_iff] at hk
      exact fun h' => hk (hperm.mem_iff.2 h')
  · intro h
    have hmem : ∀ k, k ∈ a.keys ↔ k ∈ b.keys := fun k => by
      rw [← PyDict.get?_isSome_iff, ← PyDict.get?_isSome_iff, h]
    refine ⟨?_, fun kv hkv => ?_⟩
    · have := ((List.perm_ext_iff_of_nodup ha hb).2 hmem).length_eq
      simpa [PyDict.keys] using this
    · rw [← h]; exact PyDict.get?_of_mem ha hkv

/-- **C68** `is_equal_structurally` decides whether the open graphs have the same structure. -/
theorem C68_is_equal_structurally (og other : OpenGraph) (hv : og.Valid) (hv' : other.Valid) :
    og.isEqualStructurally other = true ↔ SameStructure og other := by
  unfold OpenGraph.isEqualStructurally OpenGraph.graphsEqual
  simp only [Bool.and_eq_true, decide_eq_true_eq, PyDict.dictEq_iff hv.clif_keys hv'.clif_keys]
  constructor
  · rintro ⟨⟨⟨⟨h1, h2⟩, h3⟩, h4⟩, h5⟩
    refine ⟨h1, fun u v => ?_, h3, h4, h5⟩
    by_cases hu : u ∈ og.nodes
    · rw [← og.mem_nbrs, ← other.mem_nbrs, h2 u hu]
    · refine iff_of_false (fun h => hu ?_) (fun h => hu ?_)
      · rcases h with h | h
        · exact (hv.edge_mem _ _ h).1
        · exact (hv.edge_mem _ _ h).2
      · rw [h1]
        rcases h with h | h
        · exact (hv'.edge_mem _ _ h).1
        · exact (hv'.edge_mem _ _ h).2
  · rintro ⟨h1, h2, h3, h4, h5⟩
    refine ⟨⟨⟨⟨h1, fun u _ => ?_⟩, h3⟩, h4⟩, h5⟩
    ext v
    rw [og.mem_nbrs, other.mem_nbrs, h2]

/-- **C68** `og.isclose(other, rel_tol, abs_tol)`, for nonnegative tolerances, never raises and decides whether the structure is the
same and the measurements of each node are close. -/
theorem C68_isclose (og other : OpenGraph) (hv : og.Valid) (hv' : other.Valid) {rel abs' : ℝ} (hr : 0 ≤ rel) (ha : 0 ≤ abs') :
    ∃ b, og.isclose other rel abs' = .ok b ∧ (b = true ↔ SameStructure og other ∧
      ∀ v m m', og.measurements.get? v = some m → other.measurements.get? v = some m' → CloseSpec rel abs' m m') := by
  unfold OpenGraph.isclose
  by_cases h : og.isEqualStructurally other = true
  · rw [if_pos h]
    have hs := (C68_is_equal_structurally og other hv hv').1 h
    have hk : ∀ v m, og.measurements.get? v = some m → ∃ m', other.measurements.get? v = some m' := fun v m hm => by
      have : v ∈ og.nodes ∧ v ∉ og.outputs := (OpenGraph.exists_label hv.post v).1 ⟨_, m, hm, rfl⟩
      rw [hs.nodes, hs.outputs] at this
      obtain ⟨-, m', hm', -⟩ := (OpenGraph.exists_label hv'.post v).2 this
      exact ⟨m', hm'⟩
    have key : ∀ l : List (ℕ × Measurement), (∀ kv ∈ l, kv ∈ og.measurements) → ∃ b, OpenGraph.iscloseLoop other rel abs' l = .ok b ∧
        (b = true ↔ ∀ kv ∈ l, ∀ m', other.measurements.get? kv.1 = some m' → CloseSpec rel abs' kv.2 m') := by
      intro l
      induction l with
      | nil => exact fun _ => ⟨true, rfl, by simp⟩
      | cons kv l ih =>
        intro hl
        obtain ⟨n, m⟩ := kv
        obtain ⟨b, h1, h2⟩ := ih fun kv hkv => hl kv (by simp [hkv])
        obtain ⟨m', hm'⟩ := hk n m (PyDict.get?_of_mem hv.meas_keys (hl (n, m) (by simp)))
        obtain ⟨c, h3, h4⟩ := C68_measurement_isclose hr ha m m'
        simp only [OpenGraph.iscloseLoop, hm', h3, bind, Except.bind, pure, Except.pure]
        cases c with
        | false =>
          refine ⟨false, by simp, ?_⟩
          simp only [Bool.false_eq_true, false_iff]
          exact fun h => Bool.false_ne_true (h4.2 (h (n, m) (by simp) m' hm'))
        | true =>
          refine ⟨b, by simpa using h1, h2.trans ⟨fun h kv hkv => ?_, fun h kv hkv => h kv (by simp [hkv])⟩⟩
          rcases List.mem_cons.1 hkv with rfl | hkv
          · intro m'' hm''
            rw [hm'] at hm''
            obtain rfl := Option.some.inj hm''
            exact h4.1 rfl
          · exact h kv hkv
    obtain ⟨b, h1, h2⟩ := key og.measurements fun _ h => h
    refine ⟨b, h1, h2.trans ⟨fun h => ⟨hs, fun v m m' hm hm' => h (v, m) (PyDict.mem_of_get? hm) m' hm'⟩, fun h kv hkv m' hm' => ?_⟩⟩
    exact h.2 kv.1 kv.2 m' (PyDict.get?_of_mem hv.meas_keys hkv) hm'
  · rw [if_neg h]
    refine ⟨false, rfl, ?_⟩
    simp only [Bool.false_eq_true, false_iff, not_and]
    exact fun hs => (h ((C68_is_equal_structurally og other hv hv').2 hs)).elim

theorem CloseSpec.symm {rel abs' : ℝ} {m m' : Measurement} (h : CloseSpec rel abs' m m') : CloseSpec rel abs' m' m := by
  cases m <;> cases m' <;> simp only [CloseSpec] at h ⊢
  · rw [abs_sub_comm, max_comm (|_|)]; exact ⟨h.1, h.2.symm⟩
  · exact h.symm

/-- **C68** `isclose` is reflexive and symmetric. -/
theorem C68_isclose_refl_symm (og other : OpenGraph) (hv : og.Valid) (hv' : other.Valid) {rel abs' : ℝ} (hr : 0 ≤ rel) (ha : 0 ≤ abs') :
    og.isclose og rel abs' = .ok true ∧ og.isclose other rel abs' = other.isclose og rel abs' := by
  constructor
  · obtain ⟨b, h1, h2⟩ := C68_isclose og og hv hv hr ha
    rw [h1, h2.2]
    refine ⟨⟨rfl, fun _ _ => Iff.rfl, rfl, rfl, fun _ => rfl⟩, fun v m m' hm hm' => ?_⟩
    rw [hm] at hm'
    obtain rfl := Option.some.inj hm'
    cases m with
    | bloch a => exact ⟨by simp [ha], rfl⟩
    | pauli a => rfl
  · have flip : ∀ {a b : OpenGraph}, SameStructure a b → SameStructure b a := fun h =>
      ⟨h.nodes.symm, fun u v => (h.edges u v).symm, h.inputs.symm, h.outputs.symm, fun v => (h.cliffords v).symm⟩
    obtain ⟨b, h1, h2⟩ := C68_isclose og other hv hv' hr ha
    obtain ⟨c, h3, h4⟩ := C68_isclose other og hv' hv hr ha
    rw [h1, h3]
    congr 1
    rw [Bool.eq_iff_iff, h2, h4]
    exact ⟨fun h => ⟨flip h.1, fun v m m' hm hm' => (h.2 v m' m hm' hm).symm⟩, fun h => ⟨flip h.1, fun v m m' hm hm' => (h.2 v m' m hm' hm).symm⟩⟩

/-- **C68** Open graphs that are close with tolerance zero stand for the same map. -/
theorem C68_isclose_exact (og other : OpenGraph) (hv : og.Valid) (hv' : other.Valid) (h : og.isclose other 0 0 = .ok true) :
    og.linMap = other.linMap := by
  obtain ⟨b, h1, h2⟩ := C68_isclose og other hv hv' (le_refl (0 : ℝ)) (le_refl (0 : ℝ))
  obtain rfl : b = true := by rw [h] at h1; exact (Except.ok.inj h1).symm
  obtain ⟨hs, hc⟩ := h2.1 rfl
  have hm : ∀ v, og.measurements.get? v = other.measurements.get? v := by
    intro v
    have e1 := hv.measured v
    have e2 := hv'.measured v
    rw [← hs.nodes, ← hs.outputs, ← e1] at e2
    cases h3 : og.measurements.get? v with
    | none =>
      rw [h3] at e2
      cases h4 : other.measurements.get? v with
      | none => rfl
      | some m => rw [h4] at e2; simp at e2
    | some m =>
      rw [h3] at e2
      obtain ⟨m', h4⟩ := Option.isSome_iff_exists.1 (e2.2 rfl)
      rw [h4]
      congr 1
      have := hc v m m' h3 h4
      cases m with
      | pauli a => cases m' with
        | pauli b => simp only [CloseSpec] at this; rw [this]
        | bloch b => exact this.elim
      | bloch a => cases m' with
        | pauli b => exact this.elim
        | bloch b =>
          obtain ⟨aa, ap⟩ := a
          obtain ⟨ba, bp⟩ := b
          simp only [CloseSpec, zero_mul, max_self] at this
          have e : aa = ba := sub_eq_zero.1 (abs_eq_zero.1 (le_antisymm this.1 (abs_nonneg _)))
          rw [e, this.2]
  funext ψ
  rw [OpenGraph.linMap_locF hv, OpenGraph.linMap_locF hv', hs.nodes, hs.inputs,
    czList_same_edges hv'.edge_once hv.edge_once fun u v => hs.edges u v]
  congr 1
  refine locOps_congr (fun w _ => ?_) _
  unfold OpenGraph.locF
  rw [hm, hs.cliffords]

/-- **C68** With a negative tolerance `isclose` raises `ValueError` when the structure is the same and the measurements are Bloch
measurements (at least one), and it returns `False` when the structure is not the same. -/
theorem C68_isclose_negative (og other : OpenGraph) (hv : og.Valid) (hv' : other.Valid) {rel abs' : ℝ} (h : rel < 0 ∨ abs' < 0) :
    (SameStructure og other → og.measurements ≠ [] → (∀ kv ∈ og.measurements, ∃ b, kv.2 = .bloch b) →
      (∀ kv ∈ other.measurements, ∃ b, kv.2 = .bloch b) → og.isclose other rel abs' = .error .valueError) ∧
    (¬ SameStructure og other → og.isclose other rel abs' = .ok false) := by
  unfold OpenGraph.isclose
  constructor
  · intro hs hne hb hb'
    rw [if_pos ((C68_is_equal_structurally og other hv hv').2 hs)]
    obtain ⟨⟨n, m⟩, l, hl⟩ := List.exists_cons_of_ne_nil hne
    have hm : (n, m) ∈ og.measurements := by rw [hl]; simp
    obtain ⟨b, rfl⟩ := hb _ hm
    have : n ∈ og.nodes ∧ n ∉ og.outputs := (OpenGraph.exists_label hv.post n).1 ⟨_, _, PyDict.get?_of_mem hv.meas_keys hm, rfl⟩
    rw [hs.nodes, hs.outputs] at this
    obtain ⟨-, m', hm', -⟩ := (OpenGraph.exists_label hv'.post n).2 this
    obtain ⟨b', rfl⟩ := hb' _ (PyDict.mem_of_get? hm')
    rw [hl]
    simp only [OpenGraph.iscloseLoop, hm', Measurement.iscloseTol, mathIsClose_neg h, bind, Except.bind]
  · intro hs
    rw [if_neg fun h' => hs ((C68_is_equal_structurally og other hv hv').1 h')]

/-! ### `to_causalflow`, `to_circuit` -/

/-- **C68** `to_causalflow` returns a causal flow of the open graph, or raises `OpenGraphError` exactly when some measurement is not in
the XY plane or there is no causal flow. -/
theorem C68_to_causalflow (og : OpenGraph) (hv : og.Valid) (hpl : ∀ kv ∈ og.measurements, ∃ a, kv.2 = .bloch a) (ord : SetOrd)
    (hord : ord.Valid) :
    (∃ f, og.toCausalflow ord = .ok f ∧ f.og = og ∧ IsCausalFlow f) ∨
    (og.toCausalflow ord = .error .openGraphError ∧
      ¬ ((∀ u ∈ og.nodes, u ∉ og.outputs → og.HasLabel u (.plane .XY)) ∧ HasCausalFlow og)) := by
  unfold OpenGraph.toCausalflow
  rcases C27_find_cflow og hv hpl ord hord with ⟨f, h1, h2, -, h3, -⟩ | ⟨h1, h2⟩
  · rw [h1]; exact Or.inl ⟨f, rfl, h2, h3⟩
  · rw [h1]; exact Or.inr ⟨rfl, h2⟩

/-- The circuit is one of unitary gates on as many qubits as there are
outputs, and it implements the map of the open graph, up to a nonzero scalar. -/
def CircuitOf (og : OpenGraph) (c : Circuit) : Prop :=
  c.width = og.outputs.length ∧ (∀ i ∈ c.instrs, i.isGate) ∧
    ∃ a : ℂ, a ≠ 0 ∧ ∀ ψ, OnNodes (List.range og.inputs.length) ψ →
      og.linMap (onWires og.inputs ψ) = a • onWires og.outputs (gates c.instrs ψ)

/-- **C68** `og.to_circuit()` raises `OpenGraphError` when the open graph has no Pauli flow; `NotImplementedError` when it has one but
has also output Cliffords, or when the numbers of inputs and outputs differ; otherwise it returns a circuit. -/
theorem C68_to_circuit (og : OpenGraph) (hv : og.Valid) (hloop : ∀ v, (v, v) ∉ og.edges) (hpos : og.outputs ≠ [])
    (ord₁ ord₂ ord₃ : SetOrd) (h₁ : ord₁.Valid) (h₂ : ord₂.Valid) (h₃ : ord₃.Valid) (mmo₁ mmo₂ : MulOrd) (k₁ : mmo₁.Valid) (k₂ : mmo₂.Valid) :
    (¬ HasPauliFlow og → og.toCircuit ord₁ mmo₁ ord₂ mmo₂ ord₃ = .error .openGraphError) ∧
    (HasPauliFlow og → og.cliffords ≠ [] ∨ og.inputs.length ≠ og.outputs.length →
      og.toCircuit ord₁ mmo₁ ord₂ mmo₂ ord₃ = .error .notImplementedError) ∧
    (HasPauliFlow og → og.cliffords = [] → og.inputs.length = og.outputs.length →
      ∃ c, og.toCircuit ord₁ mmo₁ ord₂ mmo₂ ord₃ = .ok c ∧ (CircuitOf og c ↔ ∀ k, ¬ NegativeInput og k)) := by
  rcases C28_to_pauliflow og hv hloop ord₁ h₁ mmo₁ k₁ with ⟨f, e1, rfl, e3⟩ | ⟨e1, e2⟩
  · obtain ⟨hfoc, hk⟩ := C28_focused f.og hv hloop ord₁ h₁ mmo₁ k₁ f (Or.inl e1)
    have hne : f.og.nodes ≠ ∅ := by
      obtain ⟨o, l, hl⟩ := List.exists_cons_of_ne_nil hpos
      exact Finset.ne_empty_of_mem (hv.output_mem (w := o) (by rw [hl]; simp))
    refine ⟨fun h => (h e3.has).elim, fun _ hor => ?_, fun _ hcl hlen => ?_⟩
    · unfold OpenGraph.toCircuit
      by_cases hcl : f.og.cliffords = []
      · obtain ⟨er, g1, g2⟩ := C52_lengths f hv hloop hcl hk e3 hfoc hne (hor.resolve_left fun h => h hcl) ord₂ ord₃ h₂ mmo₂ k₂
        simp only [e1, g1, bind, Except.bind]
        exact g2
      · simp only [e1, C52_cliffords f ord₂ mmo₂ hcl, bind, Except.bind]
    · obtain ⟨er, c, g1, g2, g3, g4, -⟩ := C52_extract_circuit f hv hloop hcl hk e3 hfoc hlen hpos ord₂ ord₃ h₂ h₃ mmo₂ k₂
      refine ⟨c, ?_, ?_⟩
      · unfold OpenGraph.toCircuit
        simp only [e1, g1, bind, Except.bind]
        exact g2
      · rw [← C52_extract_iff f hv hloop hcl hk e3 hfoc hlen hpos ord₂ ord₃ h₂ h₃ mmo₂ k₂]
        constructor
        · rintro ⟨w1, w2, w3⟩
          exact ⟨er, c, g1, g2, w1, w2, w3⟩
        · rintro ⟨er', c', g1', g2', w⟩
          rw [g1] at g1'; cases g1'
          rw [g2] at g2'; cases g2'
          exact w
  · refine ⟨fun _ => ?_, fun h => (e2 h).elim, fun h => (e2 h).elim⟩
    unfold OpenGraph.toCircuit
    simp only [e1, bind, Except.bind]

/-! ### Parameters -/

/-- The open graph for given values of the parameters. -/
noncomputable def POpenGraph.at (og : POpenGraph) (v : ℕ → ℝ) : OpenGraph :=
  { og.skeleton with measurements := og.measurements.map fun kv => (kv.1, kv.2.at v) }

theorem POpenGraph.map_ok {og : POpenGraph} (hv : og.skeleton.postInit = .ok ()) {f : PMeasurement → Except PyErr PMeasurement} {g : PMeasurement → PMeasurement}
    (hf : ∀ m, f m = .ok (g m)) : og.map f = .ok { og with measurements := og.measurements.map fun kv => (kv.1, g kv.2) } := by
  unfold POpenGraph.map
  rw [mapVal_ok _ fun kv _ => hf kv.2]
  have : POpenGraph.skeleton { og with measurements := og.measurements.map fun kv => (kv.1, g kv.2) } = og.skeleton := by
    simp [POpenGraph.skeleton]
  simp only [this, hv, bind, Except.bind, pure, Except.pure]

/-- **C68** `og.with_parameter(x, e)` never fails; for all values `v` of the parameters the result is the open graph where `x` has the
value of `e`. -/
theorem C68_with_parameter (og : POpenGraph) (hv : og.skeleton.postInit = .ok ()) (x : ℕ) (e : Expr) :
    ∃ og', og.withParameter x e = .ok og' ∧ ∀ v, og'.at v = og.at (Function.update v x (e.val v)) := by
  have hf : ∀ m : PMeasurement, ∃ m', PMeasurement.withParameter x e m = .ok m' ∧
      ∀ v, m'.at v = m.at (Function.update v x (e.val v)) := by
    intro m
    cases m with
    | pauli m => exact ⟨_, rfl, fun _ => rfl⟩
    | bloch a pl =>
      obtain ⟨g, hg⟩ := subs_ok a e x
      refine ⟨.bloch g pl, by simp only [PMeasurement.withParameter, hg, bind, Except.bind, pure, Except.pure], fun v => ?_⟩
      simp only [PMeasurement.at, Expr.C44_subs v a e g x hg]
  choose g hg1 hg2 using hf
  refine ⟨_, POpenGraph.map_ok hv hg1, fun v => ?_⟩
  simp only [POpenGraph.at, POpenGraph.skeleton, List.map_map, OpenGraph.mk.injEq, true_and, and_true]
  exact List.map_congr_left fun kv _ => by simp only [Function.comp, hg2]

/-- **C68** `og.with_parameters(assignment)` replaces all the parameters of the assignment simultaneously. -/
theorem C68_with_parameters (og : POpenGraph) (hv : og.skeleton.postInit = .ok ()) (assignment : ℕ → Option Expr) :
    ∃ og', og.withParameters assignment = .ok og' ∧ ∀ v, og'.at v = og.at (fun x => match assignment x with | some e => e.val v | none => v x) := by
  have hf : ∀ m : PMeasurement, ∃ m', PMeasurement.withParameters assignment m = .ok m' ∧
      ∀ v, m'.at v = m.at (fun x => match assignment x with | some e => e.val v | none => v x) := by
    intro m
    cases m with
    | pauli m => exact ⟨_, rfl, fun _ => rfl⟩
    | bloch a pl =>
      obtain ⟨g, hg⟩ := xreplace_ok a assignment
      refine ⟨.bloch g pl, by simp only [PMeasurement.withParameters, hg, bind, Except.bind, pure, Except.pure], fun v => ?_⟩
      have := Expr.C44_xreplace v a g assignment hg
      simp only [PMeasurement.at, this]
      rfl
  choose g hg1 hg2 using hf
  refine ⟨_, POpenGraph.map_ok hv hg1, fun v => ?_⟩
  simp only [POpenGraph.at, POpenGraph.skeleton, List.map_map, OpenGraph.mk.injEq, true_and, and_true]
  exact List.map_congr_left fun kv _ => by simp only [Function.comp, hg2]

/-- **C68** Substituting parameters in a flow or in corrections changes only the open graph; planes and axes do not depend on the values
of the parameters, so a flow for some values is a flow for all values. -/
theorem C68_flow_parameters {α : Type} (f : POnGraph α) (hv : f.og.skeleton.postInit = .ok ()) (x : ℕ) (e : Expr) (assignment : ℕ → Option Expr) :
    (∃ f', f.withParameter x e = .ok f' ∧ f'.rest = f.rest ∧ f.og.withParameter x e = .ok f'.og) ∧
    (∃ f', f.withParameters assignment = .ok f' ∧ f'.rest = f.rest ∧ f.og.withParameters assignment = .ok f'.og) ∧
    ∀ corr layers v w, IsPauliFlow ⟨f.og.at v, corr, layers⟩ → IsPauliFlow ⟨f.og.at w, corr, layers⟩ := by
  obtain ⟨o1, h1, -⟩ := C68_with_parameter f.og hv x e
  obtain ⟨o2, h2, -⟩ := C68_with_parameters f.og hv assignment
  refine ⟨⟨{ f with og := o1 }, ?_, rfl, h1⟩, ⟨{ f with og := o2 }, ?_, rfl, h2⟩, fun corr layers v w hf => ?_⟩
  · simp only [POnGraph.withParameter, h1, bind, Except.bind, pure, Except.pure]
  · simp only [POnGraph.withParameters, h2, bind, Except.bind, pure, Except.pure]
  · have hkeys : ∀ v, (f.og.at v).measurements.keys = f.og.measurements.keys := fun v => PyDict.keys_mapVal f.og.measurements (fun m => m.at v)
    have hget : ∀ v n, (f.og.at v).measurements.get? n = (f.og.measurements.get? n).map fun m => m.at v :=
      fun v n => PyDict.get?_mapVal f.og.measurements (fun m => m.at v) n
    have hlab : ∀ v w (m : PMeasurement), (m.at v).toPlaneOrAxis = (m.at w).toPlaneOrAxis := fun v w m => by cases m <;> rfl
    have hr : (f.og.at v).Refined (f.og.at w) := by
      refine ⟨⟨rfl, rfl, rfl, rfl, rfl, by rw [hkeys, hkeys]⟩, fun n l' hl => ?_⟩
      obtain ⟨m', hm', rfl⟩ := hl
      rw [hget] at hm'
      obtain ⟨m, hm, rfl⟩ := Option.map_eq_some_iff.1 hm'
      exact ⟨_, ⟨m.at v, by rw [hget, hm]; rfl, rfl⟩, Or.inl (hlab w v m)⟩
    have hpost : (f.og.at v).postInit = .ok () := by
      have hk : (f.og.at v).measurements.keys = f.og.skeleton.measurements.keys := by
        rw [hkeys]; exact (PyDict.keys_mapVal f.og.measurements (fun _ => Measurement.pauli ⟨.X, .plus⟩)).symm
      unfold OpenGraph.postInit at hv ⊢
      rw [hk]; exact hv
    exact hr.flow' hpost hf

/-! ### Examples -/

/-- A path of three nodes whose second measurement is one of X in disguise. -/
noncomputable def exDisguised : OpenGraph := (exPath (.bloch ⟨1 / 4, .XY⟩) (.bloch ⟨1, .XY⟩)).og

theorem exDisguised_valid : exDisguised.Valid := exPath_valid _ _

/-- `infer_pauli_measurements(0, 0)` recognises `-X` in it, and the map is the same. -/
example : ∃ og', exDisguised.inferPauliMeasurements 0 0 = .ok og' ∧ og'.measurements.get? 1 = some (.pauli ⟨.X, .minus⟩) ∧
    OpPhaseEq og'.linMap exDisguised.linMap := by
  obtain ⟨og', h1, -, -, h2, -, -⟩ := C68_infer exDisguised exDisguised_valid (le_refl (0 : ℝ)) (le_refl (0 : ℝ))
  refine ⟨og', h1, ?_, C68_infer_exact _ _ exDisguised_valid h1⟩
  obtain ⟨m, h3, h4⟩ := h2 1 (.bloch ⟨1, .XY⟩) rfl
  rw [h3]
  congr 1
  refine C65_infer_complete (le_refl (0 : ℝ)) (le_refl (0 : ℝ)) _ _ _ ?_ h4
  have := observable_quarterPauli .XY 2
  simpa [quarterPauli, Plane.cos, Sign.minusIf] using this.symm

/-- `to_bloch` of an open graph with a Pauli measurement: the angle of `-X` is `1` (in units of π). -/
example : ∃ og', (exPath (.bloch ⟨1 / 4, .XY⟩) (.pauli ⟨.X, .minus⟩)).og.toBloch = .ok og' ∧
    og'.measurements.get? 1 = some (.bloch ⟨1, .XY⟩) := by
  refine ⟨_, OpenGraph.map_ok (exPath_valid _ _) (g := fun m => .bloch m.toBloch) fun _ _ => rfl, ?_⟩
  simp [OpenGraph.onMeas, exPath, PyDict.get?, Measurement.toBloch, PauliMeasurement.toBloch]

/-- A negative tolerance is refused. -/
example : exDisguised.inferPauliMeasurements (-1) 0 = .error .valueError :=
  C68_infer_negative exDisguised (Or.inl (by norm_num)) (v := 0) rfl

/-- The comparison does not depend on the direction in which networkx lists the edges, and it accepts close angles. -/
example : exDisguised.isclose ⟨{0, 1, 2}, [(2, 1), (0, 1)], [0], [2], [(1, .bloch ⟨1, .XY⟩), (0, .bloch ⟨1 / 4 + 1 / 10 ^ 12, .XY⟩)], []⟩
    (1 / 10 ^ 9) 0 = .ok true := by
  have hv' : OpenGraph.Valid ⟨{0, 1, 2}, [(2, 1), (0, 1)], [0], [2], [(1, .bloch ⟨1, .XY⟩), (0, .bloch ⟨1 / 4 + 1 / 10 ^ 12, .XY⟩)], []⟩ := by
    refine ⟨?_, ?_, ?_, ?_, ?_⟩
    · unfold OpenGraph.postInit
      simp [PyDict.keys]
      decide
    · simp; omega
    · simp
    · simp [PyDict.keys]
    · simp [PyDict.keys]
  obtain ⟨b, h1, h2⟩ := C68_isclose exDisguised _ exDisguised_valid hv' (show (0 : ℝ) ≤ 1 / 10 ^ 9 by positivity) (le_refl (0 : ℝ))
  rw [h1, h2.2]
  refine ⟨⟨rfl, fun u v => ?_, rfl, rfl, fun _ => rfl⟩, fun v m m' hm hm' => ?_⟩
  · simp [OpenGraph.Adj, exDisguised, exPath]; tauto
  · have hv0 : v = 0 ∨ v = 1 := by
      have : v ∈ exDisguised.measurements.keys := (PyDict.get?_isSome_iff _ _).1 (by rw [hm]; rfl)
      simpa [exDisguised, exPath, PyDict.keys] using this
    rcases hv0 with rfl | rfl
    · obtain rfl := Option.some.inj hm
      have : PyDict.get? [(1, Measurement.bloch ⟨1, .XY⟩), (0, .bloch ⟨1 / 4 + 1 / 10 ^ 12, .XY⟩)] 0 = some m' := hm'
      simp [PyDict.get?_cons] at this
      subst this
      refine ⟨?_, rfl⟩
      norm_num [abs_of_nonneg, abs_of_neg]
    · obtain rfl := Option.some.inj hm
      obtain rfl := Option.some.inj hm'
      exact ⟨by simp, rfl⟩

/-- `to_circuit` of the path, and of a path with Pauli flow and a Clifford. -/
example : ∃ c, exDisguised.toCircuit exOrd exMmo exOrd exMmo exOrd = .ok c ∧ CircuitOf exDisguised c := by
  have hk : (exPath (.bloch ⟨1 / 4, .XY⟩) (.bloch ⟨1, .XY⟩)).corr.keys.Nodup := by simp [exPath, PyDict.keys]
  have hpf := (C29_pauliflow _ (exPath_valid (.bloch ⟨1 / 4, .XY⟩) (.bloch ⟨1, .XY⟩)) hk exOrd exOrd_valid).1 rfl
  obtain ⟨c, h1, h2⟩ := (C68_to_circuit exDisguised exDisguised_valid (by simp [exDisguised, exPath]; omega) (by simp [exDisguised, exPath])
    exOrd exOrd exOrd exOrd_valid exOrd_valid exOrd_valid exMmo exMmo exMmo_valid exMmo_valid).2.2 hpf.has rfl rfl
  refine ⟨c, h1, h2.2 ?_⟩
  rintro k ⟨i, a, -, hm⟩
  have := PyDict.mem_of_get? hm
  simp [exDisguised, exPath] at this

/-- A parametrised open graph: the angle of node 0 is `2 x + 1`, and `x` is replaced by `3`. -/
example : ∃ og', (POpenGraph.mk {0, 1} [(0, 1)] [0] [1] [(0, .bloch (.aff 2 5 1) .XY)] []).withParameter 5 (.num 3) = .ok og' ∧
    ∀ v, (og'.at v).measurements.get? 0 = some (.bloch ⟨7, .XY⟩) := by
  obtain ⟨og', h1, h2⟩ := C68_with_parameter (POpenGraph.mk {0, 1} [(0, 1)] [0] [1] [(0, .bloch (.aff 2 5 1) .XY)] []) rfl 5 (.num 3)
  refine ⟨og', h1, fun v => ?_⟩
  rw [h2 v]
  simp [POpenGraph.at, PyDict.get?_cons, PMeasurement.at, Expr.val]
  norm_num

example :
    ∃ xz', (XZCorrections.mk (exTwo (.pauli ⟨.X, .minus⟩) (.bloch ⟨1 / 4, .XY⟩)) [(0, {1})] [(1, {2})] []).toBloch = .ok xz' ∧
      xz'.x = [(0, {1})] ∧ xz'.z = [(1, {2})] := by
  obtain ⟨xz', h, -, h1, h2, -⟩ := C68_xz_to_bloch (XZCorrections.mk (exTwo (.pauli ⟨.X, .minus⟩) (.bloch ⟨1 / 4, .XY⟩)) [(0, {1})] [(1, {2})] []) (exTwo_valid _ _)
  exact ⟨xz', h, h1, h2⟩

end Graphix
