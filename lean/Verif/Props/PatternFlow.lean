import Verif.Model.PatternFlow
import Verif.Props.StdOpenGraph
import Verif.Props.ToPauliFlow
import Verif.Props.ToPattern
import Verif.Props.TotalRun

/-!
# Property C61: the flows of a pattern
-/

namespace Graphix

/-- `enum` is a way to enumerate sets of edges. -/
def EnumOrd.Valid (enum : Finset (Sym2 ℕ) → List (ℕ × ℕ)) : Prop := ∀ s, StdPattern.Enumerates (enum s) s

/-- What a pattern that is deterministic because of a flow satisfies: all its branches have the same probability and do the same, namely
the map of the open graph, up to a phase. -/
def FollowsFlow (p : Pattern) (og : OpenGraph) : Prop :=
  Deterministic p ∧ ∀ r, OpPhaseEqOn (Absent p.preparedNodes) (semCmds r p.seq) og.linMap

/-! ### Proofs -/

/-- The prepared nodes of a runnable pattern. -/
theorem preparedNodes_eq {p : Pattern} (h : Runnable p.inputs p.seq) (hi : p.inputs.Nodup) {s : Finset ℕ}
    (hs : ∀ u, u ∈ s ↔ u ∈ introduced p.inputs p.seq) : p.preparedNodes = s \ p.inputs.toFinset := by
  have hnd := h.introduced_nodup hi
  ext u
  rw [Pattern.preparedNodes, List.mem_toFinset, Finset.mem_sdiff, List.mem_toFinset, hs]
  unfold introduced at hnd ⊢
  rw [List.mem_append]
  constructor
  · exact fun hu => ⟨Or.inr hu, fun hc => (List.nodup_append.1 hnd).2.2 _ hc _ hu rfl⟩
  · rintro ⟨h | h, h'⟩
    · exact absurd h h'
    · exact h

/-- X and Z commands do nothing in the branch where all the outcomes are 0. -/
theorem sem_false_corr (k : ℕ) (D : Finset ℕ) (ψ : QState) :
    (Command.X k D).sem (fun _ => false) ψ = ψ ∧ (Command.Z k D).sem (fun _ => false) ψ = ψ := by
  have : parity (fun _ => false) D = false := by
    unfold parity; simp
  constructor <;> simp [Command.sem, this, powB, op1_one]

theorem semCmds_false_blocks {meas : ℕ → Measurement} {xl zl : ℕ → List ℕ} (order : List ℕ) (ψ : QState) :
    semCmds (fun _ => false) (order.flatMap (blockOf meas xl zl)) ψ =
      semCmds (fun _ => false) (order.map fun u => Command.M u (meas u) ∅ ∅) ψ := by
  have hc : ∀ (l : List ℕ) (f : ℕ → Command), (∀ k, ∃ D, f k = .X k D ∨ f k = .Z k D) → ∀ ψ, semCmds (fun _ => false) (l.map f) ψ = ψ := by
    intro l f hf
    induction l with
    | nil => intro ψ; rfl
    | cons k l ih =>
      intro ψ
      rw [List.map_cons, semCmds_cons, ih]
      obtain ⟨D, h | h⟩ := hf k
      · rw [h]; exact (sem_false_corr k D ψ).1
      · rw [h]; exact (sem_false_corr k D ψ).2
  induction order generalizing ψ with
  | nil => rfl
  | cons u order ih =>
    rw [List.flatMap_cons, semCmds_append, ih, List.map_cons, semCmds_cons]
    congr 1
    unfold blockOf
    rw [semCmds_cons, semCmds_append, hc _ _ fun k => ⟨_, Or.inr rfl⟩, hc _ _ fun k => ⟨_, Or.inl rfl⟩]

/-- In the branch where all the outcomes are 0, the pattern of any corrections does the map of the open graph. -/
theorem patternCmds_false {og : OpenGraph} (hv : og.Valid) {order ns : List ℕ} (hnd : order.Nodup)
    (hset : ∀ u, u ∈ order ↔ u ∈ og.nodes ∧ u ∉ og.outputs) (hns : ns.Nodup)
    (hnm : ∀ n, n ∈ ns ↔ n ∈ og.nodes ∧ n ∉ og.inputs) (xl zl : ℕ → List ℕ) (ψ : QState) :
    semCmds (fun _ => false) (patternCmds ns og og.measOf xl zl order) ψ = og.linMap ψ := by
  obtain ⟨hm, hi, ho, -, -, hcl⟩ := og.postInit_ok hv.post
  rw [linMap_eq hv hset hns hnm]
  unfold patternCmds
  rw [semCmds_append, semCmds_append, semCmds_prepList, semCmds_edgeList, semCmds_append, semCmds_false_blocks, ← semCmds_append]
  conv_lhs => rw [← locOps_one (og.nodes.sort (· ≤ ·)) (czList og.edges (prepList ns ψ))]
  rw [semCmds_locOps (Finset.sort_nodup _ _)]
  · apply locOps_congr
    intro w hw
    rw [accum_append, accum_ms hnd]
    by_cases h : w ∈ order
    · have h2 := (hset w).1 h
      rw [if_pos h, if_pos h, Matrix.mul_one]
      apply accum_cliff_ne
      rintro kv hkv rfl
      have : kv.1 ∈ og.outputs := by
        have := hcl (x := kv.1) (by rw [List.mem_toFinset]; exact List.mem_map.2 ⟨kv, hkv, rfl⟩)
        simpa using this
      exact h2.2 this
    · rw [if_neg h, if_neg h]
  · intro c hc
    rcases List.mem_append.1 hc with hc | hc
    · obtain ⟨u, hu, rfl⟩ := List.mem_map.1 hc
      exact ⟨u, _, rfl, (Finset.mem_sort _).2 ((hset u).1 hu).1⟩
    · obtain ⟨kv, hkv, rfl⟩ := List.mem_map.1 hc
      refine ⟨kv.1, _, rfl, (Finset.mem_sort _).2 (ho (hcl ?_))⟩
      rw [List.mem_toFinset]; exact List.mem_map.2 ⟨kv, hkv, rfl⟩

/-- All about the corrections of a pattern. -/
structure CorrectionsOf (p : Pattern) (sp : StdPattern) (xz : XZCorrections) (ord : SetOrd) : Prop where
  captures : Captures p sp xz
  valid : xz.og.Valid
  loop : ∀ e ∈ xz.og.edges, e.1 ≠ e.2
  ok : CorrectionsOk xz
  wf : xz.checkWellFormed ord = .ok ()
  targets : xz.Targets
  xkeys : xz.x.keys.Nodup
  prepared : p.preparedNodes = xz.og.nodes \ xz.og.inputs.toFinset
  same : ∃ q, xz.toPattern ord none = .ok q ∧ ∀ r, OpPhaseEq (semCmds r p.seq) (semCmds r q.seq)

section
variable {p : Pattern} (hp : p.OutputsOk) (hE : NoSelfLoop p.seq)
  (hplus : ∀ n st, Command.N n st ∈ p.seq → st = PlanarState.plus) {sp : StdPattern}
  (h : StdPattern.fromPattern p = .ok sp) {enum : Finset (Sym2 ℕ) → List (ℕ × ℕ)} (he : EnumOrd.Valid enum)
  {ord : SetOrd} (hord : ord.Valid)
include hp hE hplus h he hord

theorem corrections_of_pattern : ∃ xz, p.toXZCorrections enum ord = .ok xz ∧ CorrectionsOf p sp xz ord := by
  obtain ⟨xz, h1, h2, h3, h4, h5, h6, h7⟩ := C33_to_xzcorrections p hp hE hplus sp h _ (he sp.eSet) ord hord
  have hw := fromPattern_wf hp hE h
  have hi := fromPattern_inv hE h
  obtain ⟨hR, hrun, e1, e2⟩ := fromPattern_ok h
  have hnl : ∀ w, w ∈ sp.nodeList → w ∈ xz.og.nodes := by
    intro w hw
    rw [h3.nodes]
    unfold StdPattern.nodeList at hw
    unfold introduced
    rwa [e1, hi.nl] at hw
  refine ⟨xz, by simp only [Pattern.toXZCorrections, h, bind, Except.bind, h1], h3, h4, ?_, h5, h6, ⟨?_, ?_⟩, ?_, ?_, ?_⟩
  · rintro ⟨a, b⟩ hab (rfl : a = b)
    have h8 : Odd (edgeCount p.seq a a) := (h3.adj a a).1 (Or.inl hab)
    have : edgeCount p.seq a a = 0 := by
      unfold edgeCount
      rw [List.length_eq_zero_iff, List.filter_eq_nil_iff]
      intro c hc
      cases c with
      | E u v =>
        have := hE u v hc
        simp only [decide_eq_true_eq]
        rintro (⟨h1, h2⟩ | ⟨h1, h2⟩) <;> exact this (h1.trans h2.symm)
      | _ => simp
    rw [this] at h8
    exact absurd h8 (by decide)
  · intro u s v hs hv
    exact hnl v (hw.earlier (Or.inl ((h3.x u v).1 ⟨s, hs, hv⟩))).2.2
  · intro u s v hs hv
    exact hnl v (hw.earlier (Or.inr ((h3.z u v).1 ⟨s, hs, hv⟩))).2.2
  · unfold StdPattern.toXZCorrections at h1
    rw [h2] at h1
    simp only [bind, Except.bind] at h1
    obtain ⟨c1, c2, -⟩ := corrections_spec sp hord
    have := C51_from_measured_nodes_mapping xz.og h4 ord hord _ _ c1 c2
    by_cases hc : (∀ u, u ∈ (sp.corrections ord).1.keys ∨ u ∈ (sp.corrections ord).2.keys → u ∈ xz.og.nodes ∧ u ∉ xz.og.outputs) ∧
        (∀ u v, Corrects (sp.corrections ord).1 (sp.corrections ord).2 u v → v ∈ xz.og.nodes) ∧
        ¬ HasCycle (Corrects (sp.corrections ord).1 (sp.corrections ord).2)
    · obtain ⟨xz', g1, -, g3, -⟩ := this.1 hc
      rw [h1] at g1
      cases g1
      rw [g3]; exact c1
    · rw [this.2 hc] at h1; cases h1
  · rw [preparedNodes_eq hR hp.inputs_nodup h3.nodes, h3.inputs]
  · obtain ⟨q, q1, -, -, -, q5⟩ := h7 none (by simp)
    exact ⟨q, q1, q5⟩

end

/-- From the flow of the corrections to the pattern. -/
theorem CorrectionsOf.follows {p : Pattern} {sp : StdPattern} {xz : XZCorrections} {ord : SetOrd} (h : CorrectionsOf p sp xz ord)
    (hd : GivesDeterminism xz ord) : FollowsFlow p xz.og := by
  obtain ⟨q, q1, q2⟩ := h.same
  obtain ⟨-, -, hd⟩ := hd
  obtain ⟨q', q1', -, -, -, -, h6, -, h8, -⟩ := hd none (by simp)
  rw [q1] at q1'; cases q1'
  have key : ∀ r, OpPhaseEqOn (Absent p.preparedNodes) (semCmds r p.seq) xz.og.linMap := by
    intro r
    refine ((q2 r).on _).trans ?_
    rw [h.prepared, ← h6]; exact h8 r
  refine ⟨fun r r' => ?_, key⟩
  have h9 := (key r).trans (key r').symm
  refine ⟨h9, fun ψ hψ => (h9.state (hψ.absent ?_)).branchNorm_eq _⟩
  intro n hn hn'
  rw [h.prepared, Finset.mem_sdiff, List.mem_toFinset, h.captures.inputs] at hn'
  exact hn'.2 hn

/-- In the branch where all the outcomes are 0, a pattern does the map of its open graph. -/
theorem CorrectionsOf.zero {p : Pattern} {sp : StdPattern} {xz : XZCorrections} {ord : SetOrd} (h : CorrectionsOf p sp xz ord)
    (hord : ord.Valid) : OpPhaseEq (semCmds (fun _ => false) p.seq) xz.og.linMap := by
  obtain ⟨q, q1, q2⟩ := h.same
  obtain ⟨q', q1', -, -, -, -, hext, -, ns, h5, hns, hnm⟩ := C31_to_pattern xz h.valid ord hord h.wf h.targets none (by simp)
  rw [q1] at q1'; cases q1'
  refine (q2 _).trans (OpPhaseEq.of_eq fun ψ => ?_)
  rw [h5]
  exact patternCmds_false h.valid hext.nodup hext.mem hns hnm _ _ ψ

theorem downcastBloch_ok {og og' : OpenGraph} (hv : og.Valid) (h : og.downcastBloch = .ok og') : og' = og := by
  rcases OpenGraph.downcastMeasurements_spec og.measurements with ⟨h1, -⟩ | h1
  · simp only [OpenGraph.downcastBloch, h1, hv.post, bind, Except.bind, pure, Except.pure, Except.ok.injEq] at h
    exact h.symm
  · simp only [OpenGraph.downcastBloch, h1, bind, Except.bind] at h
    cases h

theorem XZCorrections.downcastBloch_ok {xz xz' : XZCorrections} (hv : xz.og.Valid) (h : xz.downcastBloch = .ok xz') : xz' = xz := by
  unfold XZCorrections.downcastBloch at h
  obtain ⟨og, h1, h2⟩ := (bind_ok_iff _ _ _).1 h
  rw [Graphix.downcastBloch_ok hv h1] at h2
  cases h2; rfl

/-! ### Theorems -/

/-- **C61** `to_pauliflow`, for every runnable pattern that prepares |+⟩ states and does not do X corrections on its inputs: it returns a
Pauli flow of the open graph of the pattern whose corrections are those of the pattern, and then the pattern is strongly and uniformly
deterministic and does the map of the open graph; or it raises `FlowError`, and then the corrections, with the layers of the pattern, are not
those of a Pauli flow.
Missing: X corrections on inputs (`C61_input_correction`). -/
theorem C61_to_pauliflow_partial (p : Pattern) (hp : p.OutputsOk) (hE : NoSelfLoop p.seq)
    (hplus : ∀ n st, Command.N n st ∈ p.seq → st = PlanarState.plus) (sp : StdPattern)
    (h : StdPattern.fromPattern p = .ok sp) (enum : Finset (Sym2 ℕ) → List (ℕ × ℕ)) (he : EnumOrd.Valid enum)
    (ord : SetOrd) (hord : ord.Valid) (hin : ∀ u w, sp.XDom u w → w ∉ p.inputs) :
    ∃ xz, p.toXZCorrections enum ord = .ok xz ∧ Captures p sp xz ∧
      ((∃ f, p.toPauliFlow enum ord = .ok f ∧ XZCorrections.Realises xz f ∧ FollowsFlow p xz.og) ∨
        (p.toPauliFlow enum ord = .error .flowError ∧ ¬ ∃ f, XZCorrections.Realises xz f)) := by
  obtain ⟨xz, h1, hc⟩ := corrections_of_pattern hp hE hplus h he hord
  have e : p.toPauliFlow enum ord = xz.toPauliFlow ord := by
    simp only [Pattern.toPauliFlow, h1, bind, Except.bind]
  refine ⟨xz, h1, hc.captures, ?_⟩
  rw [e]
  have hleg : xz.Legal := by
    constructor
    · intro u s v hs hv
      refine ⟨hc.targets.1 u s v hs hv, ?_⟩
      rw [hc.captures.inputs]
      exact hin u v ((hc.captures.x u v).1 ⟨s, hs, hv⟩)
    · intro u s v hs hv
      exact hc.targets.2 u s v hs hv
  rcases XZCorrections.C32_to_pauliflow_partial xz hc.valid hc.ok hleg ord hord with ⟨f, f1, f2⟩ | f
  · refine Or.inl ⟨f, f1, f2, hc.follows ?_⟩
    refine determinism_of_pauliflow (f := f) (by rw [f2.og]; exact hc.valid) (by rw [f2.og]; exact hc.loop) hord f2.flow f2.og.symm hc.ok
      hc.targets ?_ ?_
    · intro u w
      rw [f2.layers]
      refine (f2.xs u w).trans (and_congr_left' ?_)
      exact XZCorrections.mem_getD.symm
    · intro u w
      rw [f2.layers]
      refine (f2.zs u w).trans (and_congr_left' ?_)
      unfold Flow.p
      cases f.corr.get? u with
      | none => simp [OpenGraph.InOdd]
      | some s => simp
  · exact Or.inr f

theorem bloch_iff {og : OpenGraph} (hv : og.Valid) :
    og.downcastBloch = .ok og ↔ ∀ w m, og.measurements.get? w = some m → ∃ a, m = .bloch a := by
  rcases OpenGraph.downcastMeasurements_spec og.measurements with ⟨h1, h2⟩ | h1
  · refine iff_of_true ?_ ?_
    · simp only [OpenGraph.downcastBloch, h1, hv.post, bind, Except.bind, pure, Except.pure]
    · intro w m hm
      exact h2 _ (PyDict.mem_of_get? hm)
  · refine iff_of_false ?_ ?_
    · simp only [OpenGraph.downcastBloch, h1, bind, Except.bind]
      intro h; cases h
    · intro hall
      have : ∀ l : PyDict ℕ Measurement, (∀ kv ∈ l, ∃ a, kv.2 = Measurement.bloch a) → OpenGraph.downcastMeasurements l = .ok l := by
        intro l
        induction l with
        | nil => intro _; rfl
        | cons kv l ih =>
          intro h
          obtain ⟨n, m⟩ := kv
          obtain ⟨a, ha⟩ := h (n, m) (by simp)
          simp only at ha
          subst ha
          have := ih fun kv hkv => h kv (by simp [hkv])
          simp only [OpenGraph.downcastMeasurements, Measurement.downcastBloch, this, bind, Except.bind, pure, Except.pure]
      rw [this _ fun kv hkv => hall kv.1 kv.2 (PyDict.get?_of_mem hv.meas_keys hkv)] at h1
      cases h1

/-- `downcast_bloch` of corrections, then a method. -/
theorem downcast_bind {xz : XZCorrections} (hv : xz.og.Valid) (F : XZCorrections → Except PyErr Flow) (f : Flow) :
    (xz.downcastBloch >>= F) = .ok f ↔ (∀ w m, xz.og.measurements.get? w = some m → ∃ a, m = .bloch a) ∧ F xz = .ok f := by
  rw [← bloch_iff hv]
  constructor
  · intro h
    obtain ⟨xz', h1, h2⟩ := (bind_ok_iff _ _ _).1 h
    have := XZCorrections.downcastBloch_ok hv h1
    subst this
    refine ⟨?_, h2⟩
    obtain ⟨og, h3, h4⟩ := (bind_ok_iff _ _ _).1 h1
    rw [h3, Graphix.downcastBloch_ok hv h3]
  · rintro ⟨h1, h2⟩
    have : xz.downcastBloch = .ok xz := by
      simp only [XZCorrections.downcastBloch, h1, bind, Except.bind, pure, Except.pure]
    rw [this]; exact h2

/-- **C61** `to_causalflow`: it succeeds exactly when all the measurements are Bloch measurements and the X corrections of the pattern, with its
layers, are a causal flow, which it returns. Then the chain `to_causalflow().to_xzcorrections().to_pattern()` gives a deterministic pattern
that does the map of the open graph, and does the same as the pattern if this one is deterministic. -/
theorem C61_to_causalflow (p : Pattern) (hp : p.OutputsOk) (hE : NoSelfLoop p.seq)
    (hplus : ∀ n st, Command.N n st ∈ p.seq → st = PlanarState.plus) (sp : StdPattern)
    (h : StdPattern.fromPattern p = .ok sp) (enum : Finset (Sym2 ℕ) → List (ℕ × ℕ)) (he : EnumOrd.Valid enum)
    (ord : SetOrd) (hord : ord.Valid) :
    ∃ xz, p.toXZCorrections enum ord = .ok xz ∧ Captures p sp xz ∧
      (∀ f, p.toCausalFlow enum ord = .ok f ↔ (∀ w m, xz.og.measurements.get? w = some m → ∃ a, m = .bloch a) ∧
        f = ⟨xz.og, xz.x, xz.layers⟩ ∧ IsCausalFlow f) ∧
      ∀ f, p.toCausalFlow enum ord = .ok f → ∃ xz' q, f.toXZC = .ok xz' ∧ xz'.toPattern ord none = .ok q ∧ Implements q xz.og ∧
        (Deterministic p → ∀ r r', OpPhaseEqOn (Absent p.preparedNodes) (semCmds r p.seq) (semCmds r' q.seq)) := by
  obtain ⟨xz, h1, hc⟩ := corrections_of_pattern hp hE hplus h he hord
  have e : ∀ f, p.toCausalFlow enum ord = .ok f ↔ (∀ w m, xz.og.measurements.get? w = some m → ∃ a, m = .bloch a) ∧
        f = ⟨xz.og, xz.x, xz.layers⟩ ∧ IsCausalFlow f := by
    intro f
    have e1 : p.toCausalFlow enum ord = xz.downcastBloch >>= fun xz => xz.toCausalFlow ord := by
      simp only [Pattern.toCausalFlow, h1, bind, Except.bind]
    rw [e1, downcast_bind hc.valid, XZCorrections.C32_to_causalflow xz hc.valid hc.xkeys ord hord]
  refine ⟨xz, h1, hc.captures, e, ?_⟩
  intro f hf
  obtain ⟨-, rfl, hf⟩ := (e f).1 hf
  obtain ⟨xz', x1, x2, x3⟩ := C30_causalflow _ hc.valid hc.loop hc.xkeys ord hord
    ((C29_causalflow ⟨xz.og, xz.x, xz.layers⟩ hc.valid hc.xkeys ord hord).2 hf)
  obtain ⟨q, q1, q2⟩ := x3.2.2 none (by simp)
  rw [x2] at q2
  refine ⟨xz', q, x1, q1, q2, fun hd r r' => ?_⟩
  refine ((hd r fun _ => false).1.trans ((hc.zero hord).on _)).trans ?_
  have := (q2.2.2.2.2.2.2.1 r').symm
  rw [q2.2.2.2.2.1, ← hc.prepared] at this
  exact this

/-- **C61** `to_gflow`: the same with gflows, whose correction sets are the X corrections, plus the node itself if it is measured in XZ or YZ. -/
theorem C61_to_gflow (p : Pattern) (hp : p.OutputsOk) (hE : NoSelfLoop p.seq)
    (hplus : ∀ n st, Command.N n st ∈ p.seq → st = PlanarState.plus) (sp : StdPattern)
    (h : StdPattern.fromPattern p = .ok sp) (enum : Finset (Sym2 ℕ) → List (ℕ × ℕ)) (he : EnumOrd.Valid enum)
    (ord : SetOrd) (hord : ord.Valid) :
    ∃ xz, p.toXZCorrections enum ord = .ok xz ∧ Captures p sp xz ∧
      ∀ f, p.toGFlow enum ord = .ok f → f.og = xz.og ∧ f.layers = xz.layers ∧ IsGFlow f ∧
        (∀ u s v, f.corr.get? u = some s → (v ∈ s ↔ sp.XDom u v ∨ (v = u ∧ (xz.og.HasLabel u (.plane .XZ) ∨ xz.og.HasLabel u (.plane .YZ))))) ∧
        ∃ xz' q, f.toXZG = .ok xz' ∧ xz'.toPattern ord none = .ok q ∧ Implements q xz.og ∧
        (Deterministic p → ∀ r r', OpPhaseEqOn (Absent p.preparedNodes) (semCmds r p.seq) (semCmds r' q.seq)) := by
  obtain ⟨xz, h1, hc⟩ := corrections_of_pattern hp hE hplus h he hord
  refine ⟨xz, h1, hc.captures, ?_⟩
  intro f hf
  have e1 : p.toGFlow enum ord = xz.downcastBloch >>= fun xz => xz.toGFlow ord := by
    simp only [Pattern.toGFlow, h1, bind, Except.bind]
  rw [e1, downcast_bind hc.valid] at hf
  obtain ⟨f1, f2, f3, f4⟩ := XZCorrections.C32_to_gflow xz hc.valid ord hord f hf.2
  have hk : f.corr.keys.Nodup := by
    have h2 := hf.2
    unfold XZCorrections.toGFlow at h2
    obtain ⟨corr, g1, g2⟩ := (bind_ok_iff _ _ _).1 h2
    obtain ⟨-, g3⟩ := (bindU_ok_iff _ _ _).1 g2
    cases g3
    exact (XZCorrections.gflowFunction_spec _ _ hc.valid.meas_keys _ _ g1).1 (by simp [PyDict.keys])
  refine ⟨f1, f2, f3, fun u s v hs => by rw [f4 u s v hs, ← hc.captures.x], ?_⟩
  obtain ⟨xz', x1, x2, x3⟩ := C30_gflow f (by rw [f1]; exact hc.valid) (by rw [f1]; exact hc.loop) hk ord hord
    ((C29_gflow f (by rw [f1]; exact hc.valid) hk ord hord).2 f3)
  obtain ⟨q, q1, q2⟩ := x3.2.2 none (by simp)
  rw [x2, f1] at q2
  refine ⟨xz', q, x1, q1, q2, fun hd r r' => ?_⟩
  refine ((hd r fun _ => false).1.trans ((hc.zero hord).on _)).trans ?_
  have := (q2.2.2.2.2.2.2.1 r').symm
  rw [q2.2.2.2.2.1, ← hc.prepared] at this
  exact this

/-! ### Counterexamples and examples -/

/-- An enumeration of the edges, in order if they are between the first ten nodes. -/
noncomputable def exEnum (s : Finset (Sym2 ℕ)) : List (ℕ × ℕ) :=
  if s ⊆ (((List.range 10).flatMap fun a => (List.range a).map fun b => s(b, a)).toFinset : Finset (Sym2 ℕ)) then
    ((List.range 10).flatMap fun a => ((List.range a).map fun b => (b, a))).filter fun e => s(e.1, e.2) ∈ s
  else (enumerates_exists s).choose

theorem exEnum_valid : EnumOrd.Valid exEnum := by
  intro s
  unfold exEnum
  split
  · rename_i h
    constructor
    · refine List.Nodup.sublist (List.filter_sublist.map _) ?_
      decide +kernel
    · ext e
      rw [List.mem_toFinset, List.mem_map]
      constructor
      · rintro ⟨x, hx, rfl⟩
        exact of_decide_eq_true (List.mem_filter.1 hx).2
      · intro he
        have := h he
        rw [List.mem_toFinset, List.mem_flatMap] at this
        obtain ⟨a, ha, hx⟩ := this
        obtain ⟨b, hb, rfl⟩ := List.mem_map.1 hx
        exact ⟨(b, a), List.mem_filter.2 ⟨List.mem_flatMap.2 ⟨a, ha, List.mem_map.2 ⟨b, hb, rfl⟩⟩, decide_eq_true he⟩, rfl⟩
  · exact (enumerates_exists s).choose_spec

/-- A pattern with an X correction on an input. -/
noncomputable def inputPattern : Pattern := (Pattern.empty [0, 1]).extend [.E 0 1, .M 0 (.bloch ⟨0, .XY⟩) ∅ ∅, .X 1 {0}]

noncomputable def inputSP : StdPattern := match StdPattern.fromPattern inputPattern with
  | .ok sp => sp
  | .error _ => ⟨StdBody.init, [], []⟩

theorem inputSP_eq : StdPattern.fromPattern inputPattern = .ok inputSP := rfl

noncomputable def inputOg' : OpenGraph := ⟨{0, 1}, [(0, 1)], [0, 1], [1], [(0, .bloch ⟨0, .XY⟩)], []⟩

theorem inputSP_og : inputSP.toOpenGraph (exEnum inputSP.eSet) = .ok inputOg' := by
  unfold StdPattern.toOpenGraph
  rw [if_neg, if_neg]
  · rfl
  · decide
  · have : inputSP.nList = [] := rfl
    rw [this]; simp

theorem inputSP_xz : ∃ xz, inputSP.toXZCorrections (exEnum inputSP.eSet) exOrd = .ok xz ∧ ∃ f, xz.toPauliFlow exOrd = .ok f ∧ f.og = inputOg' ∧ f.corr = [(0, {1})] := by
  unfold StdPattern.toXZCorrections
  rw [inputSP_og]
  simp only [bind, Except.bind]
  refine ⟨_, rfl, ⟨inputOg', [(0, {1})], [{1}, {0}]⟩, ?_, ?_, ?_⟩
  · with_unfolding_all rfl
  · with_unfolding_all rfl
  · with_unfolding_all rfl

/-- **C61** The exclusion of X corrections on inputs is necessary: here `to_pauliflow` returns a flow that is not a Pauli flow, and the
pattern is not deterministic. -/
theorem C61_input_correction : inputPattern.OutputsOk ∧ NoSelfLoop inputPattern.seq ∧
    (∃ f, inputPattern.toPauliFlow exEnum exOrd = .ok f ∧ ¬ IsPauliFlow f) ∧ ¬ Deterministic inputPattern := by
  have hs : inputPattern.seq = [.E 0 1, .M 0 (.bloch ⟨0, .XY⟩) ∅ ∅, .X 1 {0}] := rfl
  have hi : inputPattern.inputs = [0, 1] := rfl
  have ho : inputPattern.outputs = [1] := rfl
  refine ⟨⟨by rw [hi]; decide, by rw [ho]; decide, fun n => ?_⟩, ?_, ?_, ?_⟩
  · rw [hs, hi, ho]
    simp [Live, introduced, measuredIn, Command.measured?, Command.prepared?]
    omega
  · intro u v h
    rw [hs] at h
    simp at h
    omega
  · obtain ⟨xz, h1, f, h2, h3, h4⟩ := inputSP_xz
    refine ⟨f, by simp only [Pattern.toPauliFlow, Pattern.toXZCorrections, inputSP_eq, bind, Except.bind, h1, h2], fun hf => ?_⟩
    have := (hf.image 0 {1} 1 (by rw [h4]; rfl) (by simp)).2
    rw [h3] at this
    simp [inputOg'] at this
  · intro h
    obtain ⟨⟨c, -, h⟩, -⟩ := h (fun _ => false) (fun _ => true)
    have h := h (fun b => if b 1 then 0 else 1) (OnNodes.absent (l := [0, 1]) (fun b b' h => by simp only [h 1 (by simp)])
      (by simp [Pattern.preparedNodes, hs, Command.prepared?]))
    have h := congrFun h (fun _ => false)
    rw [hs] at h
    have p1 : parity (fun _ => true) {0} = true := by simp [parity]
    have p0 : parity (fun _ => false) {0} = false := by simp [parity]
    have e1 : Complex.exp (Complex.I * Real.pi) = -1 := by rw [mul_comm]; exact Complex.exp_pi_mul_I
    simp [semCmds, Command.sem, projOut, measVec, parity_empty, powB, op1, Measurement.toBloch, planarState, p0, p1, e1, cz, Ops.X,
      Matrix.one_apply] at h

/-- Two inputs: 0, linked to 1 and 2 that are linked to the outputs 3 and 4; 5, linked to the output 6. Nodes 1 and 2 are Pauli X. -/
noncomputable def lateOg : OpenGraph where
  nodes := {0, 1, 2, 3, 4, 5, 6}
  edges := [(0, 1), (0, 2), (1, 3), (2, 4), (5, 6)]
  inputs := [0, 5]
  outputs := [3, 4, 6]
  measurements := [(0, .bloch ⟨1/4, .XY⟩), (1, .pauli ⟨.X, .plus⟩), (2, .pauli ⟨.X, .plus⟩), (5, .bloch ⟨1/4, .XY⟩)]
  cliffords := []

theorem lateOg_valid : lateOg.Valid where
  post := rfl
  edge_mem := by simp [lateOg]; omega
  edge_once := by simp [lateOg]
  meas_keys := by simp [lateOg, PyDict.keys]
  clif_keys := by simp [lateOg, PyDict.keys]

/-- A Pauli flow where 0 is measured after 1 and 2. -/
noncomputable def lateFlow : Flow := ⟨lateOg, [(0, {1}), (1, {3}), (2, {4}), (5, {1, 2, 6})], [{3, 4, 6}, {0}, {1, 2}, {5}]⟩

noncomputable def lateXZ : XZCorrections := ⟨lateOg, [(1, {3}), (2, {4}), (5, {1, 2, 6})], [(0, {3}), (5, {3, 4})], [{3, 4, 6}, {0}, {1, 2}, {5}]⟩

theorem lateFlow_xz : lateFlow.toXZPauli exOrd = .ok lateXZ := by
  simp only [lateXZ]
  rfl

/-- The measurement of nodes 0 and 5. -/
noncomputable def lateM : Measurement := .bloch ⟨1/4, .XY⟩
noncomputable def latePattern : Pattern := (Pattern.empty [0, 5]).extend [.N 1 .plus, .N 2 .plus, .N 3 .plus, .N 4 .plus, .N 6 .plus, .E 0 1, .E 0 2, .E 1 3, .E 2 4, .E 5 6,
  .M 5 lateM ∅ ∅, .Z 3 {5}, .Z 4 {5}, .X 1 {5}, .X 2 {5}, .X 6 {5},
  .M 1 (.pauli ⟨.X, .plus⟩) ∅ ∅, .X 3 {1}, .M 2 (.pauli ⟨.X, .plus⟩) ∅ ∅, .X 4 {2}, .M 0 lateM ∅ ∅, .Z 3 {0}]

theorem lateXZ_pattern : ∃ q, lateXZ.toPattern exOrd none = .ok q ∧ q.seq = latePattern.seq := ⟨_, rfl, rfl⟩

noncomputable def lateSP : StdPattern := match StdPattern.fromPattern latePattern with
  | .ok sp => sp
  | .error _ => ⟨StdBody.init, [], []⟩
theorem lateSP_eq : StdPattern.fromPattern latePattern = .ok lateSP := rfl
theorem lateSP_n : lateSP.nList = [(1, .plus), (2, .plus), (3, .plus), (4, .plus), (6, .plus)] := rfl

noncomputable def lateOg' : OpenGraph := ⟨lateSP.graphNodes (exEnum lateSP.eSet), exEnum lateSP.eSet, [0, 5], [3, 4, 6],
   [(5, lateM), (1, .pauli ⟨.X, .plus⟩), (2, .pauli ⟨.X, .plus⟩), (0, lateM)], []⟩
theorem late_og : lateSP.toOpenGraph (exEnum lateSP.eSet) = .ok lateOg' := by
  unfold StdPattern.toOpenGraph
  rw [if_neg, if_neg]
  · rfl
  · decide
  · rw [lateSP_n]; simp

theorem late_xz : ∃ xz, lateSP.toXZCorrections (exEnum lateSP.eSet) exOrd = .ok xz ∧ xz.layers = [{3,4,6},{1,2},{0,5}] ∧ xz.toPauliFlow exOrd = .error .flowError := by
  unfold StdPattern.toXZCorrections
  rw [late_og]
  simp only [bind, Except.bind]
  refine ⟨_, rfl, ?_, ?_⟩
  · decide +kernel
  · with_unfolding_all rfl

/-- **C61** `to_pauliflow` may fail on the pattern of a Pauli flow: the pattern of `lateFlow` is deterministic, but `to_pauliflow` computes the
layers again from the corrections, and in these layers 0 is before 1 and 2, so that it finds no flow and raises `FlowError` (although its
documentation says that `FlowError` means that no Pauli flow is compatible with the corrections of the pattern). -/
theorem C61_pauliflow_not_found : ∃ xz q, lateFlow.checkPauli exOrd = .ok () ∧ IsPauliFlow lateFlow ∧ lateFlow.toXZPauli exOrd = .ok xz ∧
    XZCorrections.Realises xz lateFlow ∧ xz.toPattern exOrd none = .ok q ∧ Deterministic q ∧
    StdPattern.fromPattern q = .ok lateSP ∧ q.toPauliFlow exEnum exOrd = .error .flowError := by
  obtain ⟨q, q1, q2⟩ := lateXZ_pattern
  have hk : lateFlow.corr.keys.Nodup := by simp [lateFlow, PyDict.keys]
  have hf : IsPauliFlow lateFlow := (C29_pauliflow lateFlow lateOg_valid hk exOrd exOrd_valid).1 rfl
  obtain ⟨xz', x1, x2, x3⟩ := C30_pauliflow lateFlow lateOg_valid (by simp [lateFlow, lateOg]) hk exOrd exOrd_valid rfl
  rw [lateFlow_xz] at x1; cases x1
  obtain ⟨q', q1', x4⟩ := x3.2.2 none (by simp)
  rw [q1] at q1'; cases q1'
  obtain ⟨xz'', -, y1, -, y2, -⟩ := XZCorrections.C32_round_trip lateFlow lateOg_valid hf exOrd exOrd exOrd_valid exOrd_valid
  rw [lateFlow_xz] at y1; cases y1
  have hsp : StdPattern.fromPattern q = .ok lateSP := by
    rw [← lateSP_eq]
    unfold StdPattern.fromPattern
    have : latePattern.checkRunnability = .ok () := rfl
    rw [x4.1, this, q2, x4.2.2.1, x4.2.2.2.1]
    rfl
  refine ⟨lateXZ, q, rfl, hf, lateFlow_xz, y2, q1, x4.2.2.2.2.2.1, hsp, ?_⟩
  obtain ⟨xz, h1, -, h3⟩ := late_xz
  simp only [Pattern.toPauliFlow, Pattern.toXZCorrections, hsp, bind, Except.bind, h1, h3]

/-- A pattern where the Z correction of node 2 is missing. -/
noncomputable def noZPattern : Pattern := (Pattern.empty [0]).extend
  [.N 1 .plus, .N 2 .plus, .E 0 1, .E 1 2, .M 0 (.bloch ⟨0, .XY⟩) ∅ ∅, .X 1 {0}]

noncomputable def noZSP : StdPattern := match StdPattern.fromPattern noZPattern with
  | .ok sp => sp
  | .error _ => ⟨StdBody.init, [], []⟩

theorem noZSP_eq : StdPattern.fromPattern noZPattern = .ok noZSP := rfl

theorem noZSP_og : noZSP.toOpenGraph (exEnum noZSP.eSet) = .ok ⟨noZSP.graphNodes (exEnum noZSP.eSet), exEnum noZSP.eSet, [0], [1, 2],
    [(0, .bloch ⟨0, .XY⟩)], []⟩ := by
  unfold StdPattern.toOpenGraph
  rw [if_neg, if_neg]
  · rfl
  · decide
  · have : noZSP.nList = [(1, .plus), (2, .plus)] := rfl
    rw [this]; simp

/-- **C61** `to_causalflow` and `to_gflow` do not look at the Z corrections: they may succeed on a pattern that is not deterministic. -/
theorem C61_z_corrections_not_checked : noZPattern.OutputsOk ∧ NoSelfLoop noZPattern.seq ∧
    (∀ n st, Command.N n st ∈ noZPattern.seq → st = PlanarState.plus) ∧
    (∃ f, noZPattern.toCausalFlow exEnum exOrd = .ok f) ∧ (∃ f, noZPattern.toGFlow exEnum exOrd = .ok f) ∧ ¬ Deterministic noZPattern := by
  have hs : noZPattern.seq = [.N 1 .plus, .N 2 .plus, .E 0 1, .E 1 2, .M 0 (.bloch ⟨0, .XY⟩) ∅ ∅, .X 1 {0}] := rfl
  have hi : noZPattern.inputs = [0] := rfl
  have ho : noZPattern.outputs = [1, 2] := rfl
  refine ⟨⟨by rw [hi]; decide, by rw [ho]; decide, fun n => ?_⟩, ?_, ?_, ?_, ?_, ?_⟩
  · rw [hs, hi, ho]
    simp [Live, introduced, measuredIn, Command.measured?, Command.prepared?]
    omega
  · intro u v h
    rw [hs] at h
    simp at h
    omega
  · intro n st h
    rw [hs] at h
    simp at h
    rcases h with h | h <;> exact h.2
  · unfold Pattern.toCausalFlow Pattern.toXZCorrections StdPattern.toXZCorrections
    simp only [noZSP_eq, noZSP_og, bind, Except.bind]
    exact ⟨_, rfl⟩
  · unfold Pattern.toGFlow Pattern.toXZCorrections StdPattern.toXZCorrections
    simp only [noZSP_eq, noZSP_og, bind, Except.bind]
    exact ⟨_, rfl⟩
  · intro h
    obtain ⟨⟨c, hc, h⟩, -⟩ := h (fun _ => false) (fun _ => true)
    have h := h (fun b => if b 0 then 0 else 1) (OnNodes.absent (l := [0]) (fun b b' h => by simp only [h 0 (by simp)])
      (by simp [Pattern.preparedNodes, hs, Command.prepared?]))
    have h1 := congrFun h (fun _ => false)
    have h2 := congrFun h (fun n => decide (n = 2))
    rw [hs] at h1 h2
    have p1 : parity (fun _ => true) {0} = true := by simp [parity]
    have p0 : parity (fun _ => false) {0} = false := by simp [parity]
    have e1 : Complex.exp (Complex.I * Real.pi) = -1 := by rw [mul_comm]; exact Complex.exp_pi_mul_I
    simp [semCmds, Command.sem, projOut, measVec, parity_empty, powB, op1, Measurement.toBloch, planarState, p0, p1, e1, cz, Ops.X,
      Matrix.one_apply, prep, PlanarState.plus] at h1 h2
    have v : ∀ b, (⟨.XY, 0⟩ : PlanarState).vec b = (Real.sqrt 2 : ℂ)⁻¹ := by
      intro b; cases b <;> simp [PlanarState.vec, planarState]
    have hz : (Real.sqrt 2 : ℂ)⁻¹ ≠ 0 := by simp
    simp only [v] at h1 h2
    have h3 : (Real.sqrt 2 : ℂ)⁻¹ * ((Real.sqrt 2 : ℂ)⁻¹ * (Real.sqrt 2 : ℂ)⁻¹) * 2 = 0 := by linear_combination h1 + h2
    simp at h3

/-! Non-vacuity: the pattern of two J gates on one qubit has a causal flow, hence a gflow and a Pauli flow; the pattern of a Pauli flow. -/

theorem stdExample_inputs : ∀ u w, stdExampleSP.XDom u w → w ∉ stdExample.inputs := by
  intro u w h hw
  have hi : stdExample.inputs = [0] := rfl
  rw [hi, List.mem_singleton] at hw
  subst hw
  have := (fromPattern_wf stdExample_outputsOk stdExample_noSelfLoop stdExampleSP_eq).earlier (Or.inl h)
  have hm : stdExampleSP.measNodes = [0, 1] := rfl
  rw [hm] at this
  simp at this

example : stdExample.OutputsOk ∧ NoSelfLoop stdExample.seq ∧ (∀ n st, Command.N n st ∈ stdExample.seq → st = PlanarState.plus) ∧
    StdPattern.fromPattern stdExample = .ok stdExampleSP ∧ EnumOrd.Valid exEnum ∧ SetOrd.Valid exOrd ∧
    ∀ u w, stdExampleSP.XDom u w → w ∉ stdExample.inputs :=
  ⟨stdExample_outputsOk, stdExample_noSelfLoop, stdExample_plus, stdExampleSP_eq, exEnum_valid, exOrd_valid, stdExample_inputs⟩

theorem stdExampleSP_og : stdExampleSP.toOpenGraph (exEnum stdExampleSP.eSet) = .ok ⟨stdExampleSP.graphNodes (exEnum stdExampleSP.eSet),
    exEnum stdExampleSP.eSet, [0], [2], [(0, .bloch ⟨1/4, .XY⟩), (1, .bloch ⟨1/8, .XY⟩)], []⟩ := by
  unfold StdPattern.toOpenGraph
  rw [if_neg, if_neg]
  · rfl
  · decide
  · have : stdExampleSP.nList = [(1, .plus), (2, .plus)] := rfl
    rw [this]; simp

example : (∃ f, stdExample.toCausalFlow exEnum exOrd = .ok f) ∧ (∃ f, stdExample.toGFlow exEnum exOrd = .ok f) ∧
    ∃ f, stdExample.toPauliFlow exEnum exOrd = .ok f := by
  refine ⟨?_, ?_, ?_⟩
  · unfold Pattern.toCausalFlow Pattern.toXZCorrections StdPattern.toXZCorrections
    simp only [stdExampleSP_eq, stdExampleSP_og, bind, Except.bind]
    exact ⟨_, rfl⟩
  · unfold Pattern.toGFlow Pattern.toXZCorrections StdPattern.toXZCorrections
    simp only [stdExampleSP_eq, stdExampleSP_og, bind, Except.bind]
    exact ⟨_, rfl⟩
  · unfold Pattern.toPauliFlow Pattern.toXZCorrections StdPattern.toXZCorrections
    simp only [stdExampleSP_eq, stdExampleSP_og, bind, Except.bind]
    exact ⟨_, rfl⟩

end Graphix
