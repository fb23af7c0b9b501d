import Verif.Props.PatternFlow
import Verif.Proofs.StdPatternCmds

/-!
# Property C61: from flows to patterns and back
-/

namespace Graphix

/-- The same open graph, up to the order in which dictionaries and edges are listed. -/
structure SameGraph (og og' : OpenGraph) : Prop where
  nodes : og'.nodes = og.nodes
  inputs : og'.inputs = og.inputs
  outputs : og'.outputs = og.outputs
  adj : ∀ u v, og'.Adj u v ↔ og.Adj u v
  meas : ∀ w, og'.measurements.get? w = og.measurements.get? w
  cliffords : og'.cliffords = og.cliffords

/-- The same corrections on the same graph (the layers may differ). -/
structure SameCorrections (xz xz' : XZCorrections) : Prop where
  graph : SameGraph xz.og xz'.og
  x : ∀ u w, InD xz'.x u w ↔ InD xz.x u w
  z : ∀ u w, InD xz'.z u w ↔ InD xz.z u w

/-! ### Proofs -/

theorem SameGraph.label {og og' : OpenGraph} (h : SameGraph og og') (v : ℕ) (l : Label) : og'.HasLabel v l ↔ og.HasLabel v l := by
  unfold OpenGraph.HasLabel; rw [h.meas]

theorem SameGraph.odd {og og' : OpenGraph} (h : SameGraph og og') (s : Finset ℕ) (v : ℕ) : og'.InOdd s v ↔ og.InOdd s v := by
  unfold OpenGraph.InOdd
  have : s.filter (og'.Adj v) = s.filter (og.Adj v) := Finset.filter_congr fun w _ => h.adj v w
  rw [this]

/-- In a graph that lists its edges once, the number of times is 0 or 1. -/
theorem odd_edges {es : List (ℕ × ℕ)} (h : es.Pairwise fun e e' => e ≠ e' ∧ e ≠ (e'.2, e'.1)) (u v : ℕ) :
    Odd (es.filter fun e => decide ((e.1 = u ∧ e.2 = v) ∨ (e.1 = v ∧ e.2 = u))).length ↔ (u, v) ∈ es ∨ (v, u) ∈ es := by
  have hp := h.filter (fun e => decide ((e.1 = u ∧ e.2 = v) ∨ (e.1 = v ∧ e.2 = u)))
  have hm : ∀ e, e ∈ es.filter (fun e => decide ((e.1 = u ∧ e.2 = v) ∨ (e.1 = v ∧ e.2 = u))) ↔ e ∈ es ∧ (e = (u, v) ∨ e = (v, u)) := by
    rintro ⟨a, b⟩; simp
  have hiff : ((u, v) ∈ es ∨ (v, u) ∈ es) ↔ ∃ e, e ∈ es.filter (fun e => decide ((e.1 = u ∧ e.2 = v) ∨ (e.1 = v ∧ e.2 = u))) := by
    simp only [hm]
    constructor
    · rintro (h | h)
      · exact ⟨_, h, Or.inl rfl⟩
      · exact ⟨_, h, Or.inr rfl⟩
    · rintro ⟨e, h, rfl | rfl⟩
      · exact Or.inl h
      · exact Or.inr h
  rw [hiff]
  generalize es.filter (fun e => decide ((e.1 = u ∧ e.2 = v) ∨ (e.1 = v ∧ e.2 = u))) = F at hp hm
  match F, hp, hm with
  | [], _, _ => simp
  | [e], _, _ => simp
  | e :: e' :: F, hp, hm =>
    exfalso
    have h1 := (List.pairwise_cons.1 hp).1 e' (by simp)
    obtain ⟨-, ha⟩ := (hm e).1 (by simp)
    obtain ⟨-, hb⟩ := (hm e').1 (by simp)
    rcases ha with rfl | rfl <;> rcases hb with rfl | rfl <;> simp at h1

theorem edgeCount_append (l l' : List Command) (u v : ℕ) : edgeCount (l ++ l') u v = edgeCount l u v + edgeCount l' u v := by
  unfold edgeCount; rw [List.filter_append, List.length_append]

theorem edgeCount_zero {l : List Command} (h : ∀ a b, Command.E a b ∉ l) (u v : ℕ) : edgeCount l u v = 0 := by
  unfold edgeCount
  rw [List.length_eq_zero_iff, List.filter_eq_nil_iff]
  intro c hc
  cases c with
  | E a b => exact absurd hc (h a b)
  | _ => simp

theorem blocks_no_edge {meas : ℕ → Measurement} {xl zl : ℕ → List ℕ} {order : List ℕ} {c : Command}
    (hc : c ∈ order.flatMap (blockOf meas xl zl)) : (∀ a b, c ≠ .E a b) ∧ ∀ n st, c ≠ .N n st := by
  obtain ⟨u, -, hc⟩ := List.mem_flatMap.1 hc
  unfold blockOf at hc
  rcases List.mem_cons.1 hc with rfl | hc
  · simp
  · rcases List.mem_append.1 hc with hc | hc <;> obtain ⟨k, -, rfl⟩ := List.mem_map.1 hc <;> simp

theorem edgeCount_patternCmds (ns : List ℕ) (og : OpenGraph) (meas : ℕ → Measurement) (xl zl : ℕ → List ℕ) (order : List ℕ) (u v : ℕ) :
    edgeCount (patternCmds ns og meas xl zl order) u v =
      (og.edges.filter fun e => decide ((e.1 = u ∧ e.2 = v) ∨ (e.1 = v ∧ e.2 = u))).length := by
  unfold patternCmds
  rw [edgeCount_append, edgeCount_append, edgeCount_append, edgeCount_zero (l := ns.map _) (by simp),
    edgeCount_zero (l := order.flatMap _) (fun a b h => (blocks_no_edge h).1 a b rfl), edgeCount_zero (l := og.cliffords.map _) (by simp)]
  simp only [zero_add, add_zero]
  unfold edgeCount
  rw [List.filter_map, List.length_map]
  rfl

theorem mem_patternCmds_E {ns : List ℕ} {og : OpenGraph} {meas : ℕ → Measurement} {xl zl : ℕ → List ℕ} {order : List ℕ} {a b : ℕ}
    (h : Command.E a b ∈ patternCmds ns og meas xl zl order) : (a, b) ∈ og.edges := by
  unfold patternCmds at h
  rcases List.mem_append.1 h with h | h
  · simp at h
  rcases List.mem_append.1 h with h | h
  · obtain ⟨e, he, hh⟩ := List.mem_map.1 h
    cases hh; exact he
  rcases List.mem_append.1 h with h | h
  · exact absurd rfl ((blocks_no_edge h).1 a b)
  · simp at h

theorem mem_patternCmds_N {ns : List ℕ} {og : OpenGraph} {meas : ℕ → Measurement} {xl zl : ℕ → List ℕ} {order : List ℕ} {n : ℕ}
    {st : PlanarState} : Command.N n st ∈ patternCmds ns og meas xl zl order ↔ n ∈ ns ∧ st = PlanarState.plus := by
  unfold patternCmds
  constructor
  · intro h
    rcases List.mem_append.1 h with h | h
    · obtain ⟨k, hk, hh⟩ := List.mem_map.1 h
      cases hh; exact ⟨hk, rfl⟩
    rcases List.mem_append.1 h with h | h
    · simp at h
    rcases List.mem_append.1 h with h | h
    · exact absurd rfl ((blocks_no_edge h).2 n st)
    · simp at h
  · rintro ⟨h, rfl⟩
    exact List.mem_append_left _ (List.mem_map.2 ⟨n, h, rfl⟩)

/-! ### Theorems -/

/-- **C61** `to_xzcorrections` gives back the corrections from which `to_pattern` has built a pattern, for every total order. -/
theorem C61_corrections_round_trip (xz : XZCorrections) (hv : xz.og.Valid) (hloop : ∀ e ∈ xz.og.edges, e.1 ≠ e.2) (hco : CorrectionsOk xz)
    (ht : xz.Targets) (ord : SetOrd) (hord : ord.Valid) (given : Option (List ℕ))
    (hg : ∀ o, given = some o → xz.isCompatible o = .ok true) (enum : Finset (Sym2 ℕ) → List (ℕ × ℕ)) (he : EnumOrd.Valid enum)
    (ord' : SetOrd) (hord' : ord'.Valid) :
    ∃ q xz', xz.toPattern ord given = .ok q ∧ q.toXZCorrections enum ord' = .ok xz' ∧ SameCorrections xz xz' ∧
      ∃ sp, CorrectionsOf q sp xz' ord' := by
  have hwf := (C29_xzcorrections xz hv ord hord).2 hco
  obtain ⟨q, h1, h2, h3, h4, -, hext, hook, ns, h5, hns, hnm⟩ := C31_to_pattern xz hv ord hord hwf ht given hg
  obtain ⟨hm, hi, ho, -, -, hcl⟩ := xz.og.postInit_ok hv.post
  obtain ⟨b, b1, b2, b3, b4, b5, b6, b7⟩ := StdBody.run_patternCmds hv.clif_keys ns (meas := xz.og.measOf) (xl := xz.xl ord) (zl := xz.zl ord)
    (fun u => corrected_nodup hord _ _ _ _) (fun u => corrected_nodup hord _ _ _ _) hext.nodup (later_of_ext hord hco ht hext)
  set sp : StdPattern := { b with inputs := q.inputs, outputs := q.outputs } with hsp
  have hf : StdPattern.fromPattern q = .ok sp := by
    unfold StdPattern.fromPattern
    rw [h2]
    simp only
    rw [h5, b1]
    rfl
  have hE : NoSelfLoop q.seq := by
    intro a c h
    rw [h5] at h
    exact hloop _ (mem_patternCmds_E h)
  have hplus : ∀ n st, Command.N n st ∈ q.seq → st = PlanarState.plus := by
    intro n st h
    rw [h5] at h
    exact (mem_patternCmds_N.1 h).2
  obtain ⟨xz', x1, hc⟩ := corrections_of_pattern hook hE hplus hf he hord'
  have hX : ∀ u w, sp.XDom u w ↔ InD xz.x u w := by
    intro u w
    unfold StdPattern.XDom
    rw [dom_of_src b4 MCmd.sDomain b3 (fun _ => rfl) (fun _ => rfl) b6 u w, XZCorrections.xl, corrected_mem hord]
    refine ⟨fun h => h.2, fun h => ⟨?_, h⟩⟩
    obtain ⟨s, hs, -⟩ := h
    exact (hext.mem u).2 (hco.domain u (Or.inl ⟨s, hs⟩))
  have hZ : ∀ u w, sp.ZDom u w ↔ InD xz.z u w := by
    intro u w
    unfold StdPattern.ZDom
    rw [dom_of_src b5 MCmd.tDomain b3 (fun _ => rfl) (fun _ => rfl) b7 u w, XZCorrections.zl, corrected_mem hord]
    refine ⟨fun h => h.2, fun h => ⟨?_, h⟩⟩
    obtain ⟨s, hs, -⟩ := h
    exact (hext.mem u).2 (hco.domain u (Or.inr ⟨s, hs⟩))
  have hcap := hc.captures
  refine ⟨q, xz', h1, x1, ⟨⟨?_, hcap.inputs.trans h3, hcap.outputs.trans h4, fun u v => ?_, fun w => ?_, ?_⟩, ?_, ?_⟩, sp, hc⟩
  · ext u
    rw [hcap.nodes]
    unfold introduced
    rw [List.mem_append, h3, List.mem_filterMap]
    constructor
    · rintro (h | ⟨c, hc, hc'⟩)
      · exact hi (List.mem_toFinset.2 h)
      · cases c <;> simp only [Command.prepared?, Option.some.injEq, reduceCtorEq] at hc'
        subst hc'
        rw [h5] at hc
        exact ((hnm _).1 (mem_patternCmds_N.1 hc).1).1
    · intro h
      by_cases h' : u ∈ xz.og.inputs
      · exact Or.inl h'
      · refine Or.inr ⟨.N u .plus, ?_, rfl⟩
        rw [h5]
        exact mem_patternCmds_N.2 ⟨(hnm u).2 ⟨h, h'⟩, rfl⟩
  · rw [hcap.adj, h5, edgeCount_patternCmds, odd_edges hv.edge_once]
    rfl
  · have hk : ∀ m, xz'.og.measurements.get? w = some m ↔ xz.og.measurements.get? w = some m := by
      intro m
      rw [hcap.meas]
      have e1 : (∃ c ∈ sp.mList, c.node = w ∧ c.measurement = m) ↔ w ∈ measuredIn q.seq ∧ xz.og.measOf w = m := by
        have : sp.mList = _ := b3
        rw [this]
        constructor
        · rintro ⟨c, hc, rfl, rfl⟩
          obtain ⟨k, hk, rfl⟩ := List.mem_map.1 hc
          exact ⟨hk, rfl⟩
        · rintro ⟨h, rfl⟩
          exact ⟨_, List.mem_map.2 ⟨w, h, rfl⟩, rfl, rfl⟩
      rw [e1, hext.mem]
      have e2 : (w ∈ xz.og.nodes ∧ w ∉ xz.og.outputs) ↔ w ∈ xz.og.measurements.keys := by
        have := congrArg (fun s => w ∈ s) hm
        simpa [List.mem_toFinset, Finset.mem_sdiff, eq_iff_iff, iff_comm] using this
      rw [e2, ← PyDict.get?_isSome_iff]
      unfold OpenGraph.measOf
      cases xz.og.measurements.get? w <;> simp
    cases h : xz.og.measurements.get? w with
    | some m => exact (hk m).2 h
    | none =>
      cases h' : xz'.og.measurements.get? w with
      | none => rfl
      | some m => rw [(hk m).1 h'] at h; cases h
  · rw [hcap.cliffords]; exact b2
  · intro u w; rw [← hX]; exact hcap.x u w
  · intro u w; rw [← hZ]; exact hcap.z u w

/-! ### Flows -/

theorem gflowFunction_ok (x : PyDict ℕ (Finset ℕ)) (l : PyDict ℕ Measurement) (h : ∀ kv ∈ l, ∃ p, kv.2.toPlaneOrAxis = .plane p) :
    ∀ d, ∃ d', XZCorrections.gflowFunction x l d = .ok d' := by
  induction l with
  | nil => intro d; exact ⟨d, rfl⟩
  | cons a l ih =>
    intro d
    obtain ⟨i, m⟩ := a
    obtain ⟨p, hp⟩ := h (i, m) (by simp)
    have hp' : m.toPlane = .ok p := by
      cases m <;> simp [Measurement.toPlane, Measurement.toPlaneOrAxis] at hp ⊢
      exact hp
    unfold XZCorrections.gflowFunction
    rw [hp']
    exact ih (fun kv hkv => h kv (by simp [hkv])) _

/-- C32 `to_gflow`, exactly: it succeeds if and only if the X corrections, with the nodes measured in XZ and YZ added to their own correction set,
are a gflow for the layers of the corrections, and it returns this gflow. -/
theorem C32_to_gflow_iff (xz : XZCorrections) (hv : xz.og.Valid) (ord : SetOrd) (hord : ord.Valid) :
    (∃ f, xz.toGFlow ord = .ok f) ↔ ∃ f, f.og = xz.og ∧ f.layers = xz.layers ∧ IsGFlow f ∧ ∀ u s v, f.corr.get? u = some s → (v ∈ s ↔
      InD xz.x u v ∨ (v = u ∧ (xz.og.HasLabel u (.plane .XZ) ∨ xz.og.HasLabel u (.plane .YZ)))) := by
  constructor
  · rintro ⟨f, hf⟩
    exact ⟨f, XZCorrections.C32_to_gflow xz hv ord hord f hf⟩
  · rintro ⟨f, f1, f2, f3, f4⟩
    obtain ⟨hm, -⟩ := xz.og.postInit_ok hv.post
    have hmk : ∀ u, u ∈ xz.og.measurements.keys ↔ u ∈ xz.og.nodes ∧ u ∉ xz.og.outputs := by
      intro u
      rw [← List.mem_toFinset, hm, Finset.mem_sdiff, List.mem_toFinset]
    obtain ⟨d, hd⟩ := gflowFunction_ok xz.x xz.og.measurements (fun kv hkv => by
      obtain ⟨a, b⟩ := (hmk kv.1).1 (List.mem_map_of_mem hkv)
      obtain ⟨p, m, hm, hp⟩ := f3.planes kv.1 (by rw [f1]; exact a) (by rw [f1]; exact b)
      rw [f1, PyDict.get?_of_mem hv.meas_keys hkv] at hm
      cases hm
      exact ⟨p, hp⟩) []
    obtain ⟨g1, g2⟩ := XZCorrections.gflowFunction_spec _ _ hv.meas_keys _ _ hd
    have hcorr : ∀ u, d.get? u = f.corr.get? u := by
      intro u
      cases hmu : xz.og.measurements.get? u with
      | none =>
        rw [(g2 u).2 hmu]
        cases hs : f.corr.get? u with
        | none => rfl
        | some s =>
          have := (hmk u).2 (by rw [← f1]; exact (f3.domain u).1 ⟨s, hs⟩)
          rw [← PyDict.get?_isSome_iff, hmu] at this
          cases this
      | some m =>
        have hu := (hmk u).1 (by rw [← PyDict.get?_isSome_iff, hmu]; rfl)
        obtain ⟨s, hs⟩ := (f3.domain u).2 (by rw [f1]; exact hu)
        obtain ⟨p, hp, hdu⟩ := (g2 u).1 m hmu
        rw [hdu, hs]
        congr 1
        ext v
        have hlab : ∀ q, xz.og.HasLabel u (.plane q) ↔ q = p := by
          intro q
          constructor
          · rintro ⟨m', h1, h2⟩
            rw [hmu] at h1; cases h1
            rw [hp] at h2
            cases h2; rfl
          · rintro rfl; exact ⟨m, hmu, hp⟩
        rw [f4 u s v hs, hlab, hlab, InD, ← XZCorrections.mem_getD]
        by_cases hpp : p = .XZ ∨ p = .YZ
        · rw [if_pos hpp, Finset.mem_insert]
          have : (Plane.XZ = p ∨ Plane.YZ = p) := hpp.imp Eq.symm Eq.symm
          tauto
        · rw [if_neg hpp]
          have : ¬ (Plane.XZ = p ∨ Plane.YZ = p) := fun h => hpp (h.imp Eq.symm Eq.symm)
          tauto
    have hgf : IsGFlow ⟨xz.og, d, xz.layers⟩ := by
      constructor
      case toFlowBase =>
        refine ⟨fun u => ?_, fun u s v hs => ?_, ?_⟩
        · have := f3.domain u; rw [f1] at this; dsimp only; rw [hcorr]; exact this
        · have := f3.image u s v; rw [f1] at this; dsimp only at hs; rw [hcorr] at hs; exact this hs
        · have := f3.layers; rw [f1, f2] at this; exact this
      case planes => have := f3.planes; rw [f1] at this; exact this
      all_goals
        dsimp only
        intro u s hs
        rw [hcorr] at hs
      case g1 => have := f3.g1 u s hs; rw [f2] at this; exact this
      case g2 => have := f3.g2 u s hs; rw [f1, f2] at this; exact this
      case g3 => have := f3.g3 u s hs; rw [f1] at this; exact this
      case g4 => have := f3.g4 u s hs; rw [f1] at this; exact this
      case g5 => have := f3.g5 u s hs; rw [f1] at this; exact this
    refine ⟨⟨xz.og, d, xz.layers⟩, ?_⟩
    unfold XZCorrections.toGFlow
    simp only [hd, bind, Except.bind, (C29_gflow ⟨xz.og, d, xz.layers⟩ hv (g1 (by simp [PyDict.keys])) ord hord).2 hgf]
    rfl

/-- A gflow for another order. -/
theorem IsGFlow.transport {f : Flow} (hf : IsGFlow f) {og : OpenGraph} (hg : SameGraph f.og og) {layers : List (Finset ℕ)}
    (hl : LayersOk og layers) (h1 : ∀ u s, f.corr.get? u = some s → ∀ v ∈ s, v ≠ u → Before layers u v)
    (h2 : ∀ u s, f.corr.get? u = some s → ∀ v ∈ f.og.nodes, f.og.InOdd s v → v ≠ u → Before layers u v) :
    IsGFlow ⟨og, f.corr, layers⟩ := by
  constructor
  case toFlowBase =>
    refine ⟨fun u => ?_, fun u s v hs => ?_, hl⟩
    · rw [hg.nodes, hg.outputs]; exact hf.domain u
    · rw [hg.nodes, hg.inputs]; exact hf.image u s v hs
  case planes => intro u; rw [hg.nodes, hg.outputs]; simp only [hg.label]; exact hf.planes u
  case g1 => exact h1
  case g2 => intro u s hs v; rw [hg.nodes, hg.odd]; exact h2 u s hs v
  case g3 => intro u s hs; rw [hg.label, hg.odd]; exact hf.g3 u s hs
  case g4 => intro u s hs; rw [hg.label, hg.odd]; exact hf.g4 u s hs
  case g5 => intro u s hs; rw [hg.label, hg.odd]; exact hf.g5 u s hs

/-- **C61** The gflow of a pattern that was built from a gflow, with any total order, is found again by `to_gflow`, with the same correction
sets on the same graph. -/
theorem C61_gflow_round_trip (f : Flow) (hv : f.og.Valid) (hloop : ∀ e ∈ f.og.edges, e.1 ≠ e.2) (hk : f.corr.keys.Nodup) (hf : IsGFlow f)
    (ord : SetOrd) (hord : ord.Valid) (enum : Finset (Sym2 ℕ) → List (ℕ × ℕ)) (he : EnumOrd.Valid enum)
    (ord' : SetOrd) (hord' : ord'.Valid) :
    ∃ xz, f.toXZG = .ok xz ∧ ∀ given : Option (List ℕ), (∀ o, given = some o → xz.isCompatible o = .ok true) →
      ∃ q f', xz.toPattern ord given = .ok q ∧ q.toGFlow enum ord' = .ok f' ∧ SameGraph f.og f'.og ∧ IsGFlow f' ∧
        ∀ u, f'.corr.get? u = f.corr.get? u := by
  obtain ⟨xz, h1, h2, h3, h4, h5⟩ := Flow.toXZG_ok hf.toFlowBase hk
  obtain ⟨xz0, x1, x2, x3⟩ := C30_gflow f hv hloop hk ord hord ((C29_gflow f hv hk ord hord).2 hf)
  rw [h1] at x1; cases x1
  refine ⟨xz, h1, fun given hg => ?_⟩
  have hv' : xz.og.Valid := by rw [h2]; exact hv
  obtain ⟨q, xz', q1, q2, q3, sp, q4⟩ := C61_corrections_round_trip xz hv' (by rw [h2]; exact hloop)
    ((C29_xzcorrections xz hv' ord hord).1 x3.1) x3.2.1 ord hord given hg enum he ord' hord'
  have hsg : SameGraph f.og xz'.og := by rw [← h2]; exact q3.graph
  have hp : ∀ u s, f.corr.get? u = some s → f.p u = s := fun u s hs => by unfold Flow.p; rw [hs]; rfl
  have hgf : IsGFlow ⟨xz'.og, f.corr, xz'.layers⟩ := by
    refine hf.transport hsg q4.ok.layers (fun u s hs v hv hne => ?_) (fun u s hs v hvn hv hne => ?_)
    · have : InD xz'.x u v := (q3.x u v).2 ((h4 u v).2 ⟨by rw [hp u s hs]; exact hv, hne⟩)
      obtain ⟨t, t1, t2⟩ := this
      exact q4.ok.x_later u t v t1 t2 (q4.targets.1 u t v t1 t2)
    · have : InD xz'.z u v := (q3.z u v).2 ((h5 u v).2 ⟨by rw [hp u s hs]; exact hv, hne⟩)
      obtain ⟨t, t1, t2⟩ := this
      exact q4.ok.z_later u t v t1 t2 (q4.targets.2 u t v t1 t2)
  have hset : ∀ u s v, f.corr.get? u = some s → (v ∈ s ↔
      InD xz'.x u v ∨ (v = u ∧ (xz'.og.HasLabel u (.plane .XZ) ∨ xz'.og.HasLabel u (.plane .YZ)))) := by
    intro u s v hs
    rw [q3.x, h4, hp u s hs, hsg.label, hsg.label]
    obtain ⟨hun, huo⟩ := (hf.domain u).1 ⟨s, hs⟩
    obtain ⟨p, hl⟩ := hf.planes u hun huo
    constructor
    · intro hvs
      by_cases hvu : v = u
      · subst hvu
        refine Or.inr ⟨rfl, ?_⟩
        cases p
        · exact absurd hvs (hf.g3 v s hs hl).1
        · exact Or.inr hl
        · exact Or.inl hl
      · exact Or.inl ⟨hvs, hvu⟩
    · rintro (h | ⟨rfl, h | h⟩)
      · exact h.1
      · exact (hf.g4 v s hs h).1
      · exact (hf.g5 v s hs h).1
  obtain ⟨f', hf'⟩ := (C32_to_gflow_iff xz' q4.valid ord' hord').2 ⟨⟨xz'.og, f.corr, xz'.layers⟩, rfl, rfl, hgf, hset⟩
  obtain ⟨g1, g2, g3, g4⟩ := XZCorrections.C32_to_gflow xz' q4.valid ord' hord' f' hf'
  have hb : ∀ w m, xz'.og.measurements.get? w = some m → ∃ a, m = .bloch a := by
    intro w m hm
    obtain ⟨hmk, -⟩ := xz'.og.postInit_ok q4.valid.post
    have hw : w ∈ xz'.og.nodes \ xz'.og.outputs.toFinset := by
      rw [← hmk, List.mem_toFinset, ← PyDict.get?_isSome_iff, hm]; rfl
    rw [Finset.mem_sdiff, List.mem_toFinset] at hw
    obtain ⟨p, m', hm', hp⟩ := hgf.planes w hw.1 hw.2
    have : m = m' := Option.some.inj (hm.symm.trans hm')
    subst this
    cases m with
    | bloch a => exact ⟨a, rfl⟩
    | pauli a => simp [Measurement.toPlaneOrAxis] at hp
  refine ⟨q, f', q1, ?_, by rw [g1]; exact hsg, g3, fun u => ?_⟩
  · have e1 : q.toGFlow enum ord' = xz'.downcastBloch >>= fun xz => xz.toGFlow ord' := by
      simp only [Pattern.toGFlow, q2, bind, Except.bind]
    rw [e1, downcast_bind q4.valid]
    exact ⟨hb, hf'⟩
  · have hdom : (∃ s, f'.corr.get? u = some s) ↔ ∃ s, f.corr.get? u = some s := by
      rw [g3.domain, hf.domain, g1, hsg.nodes, hsg.outputs]
    cases hs : f.corr.get? u with
    | none =>
      cases hs' : f'.corr.get? u with
      | none => rfl
      | some s =>
        obtain ⟨t, ht⟩ := hdom.1 ⟨s, hs'⟩
        rw [hs] at ht; cases ht
    | some s =>
      obtain ⟨t, ht⟩ := hdom.2 ⟨s, hs⟩
      rw [ht]
      congr 1
      ext v
      rw [hset u s v hs]
      exact g4 u t v ht

/-- **C61** The causal flow of a pattern that was built from a causal flow, with any total order, is found again by `to_causalflow`, with the same
correction sets on the same graph. -/
theorem C61_causalflow_round_trip (f : Flow) (hv : f.og.Valid) (hloop : ∀ e ∈ f.og.edges, e.1 ≠ e.2) (hk : f.corr.keys.Nodup)
    (hf : IsCausalFlow f) (ord : SetOrd) (hord : ord.Valid) (enum : Finset (Sym2 ℕ) → List (ℕ × ℕ)) (he : EnumOrd.Valid enum)
    (ord' : SetOrd) (hord' : ord'.Valid) :
    ∃ xz, f.toXZC = .ok xz ∧ ∀ given : Option (List ℕ), (∀ o, given = some o → xz.isCompatible o = .ok true) →
      ∃ q f', xz.toPattern ord given = .ok q ∧ q.toCausalFlow enum ord' = .ok f' ∧ SameGraph f.og f'.og ∧ IsCausalFlow f' ∧
        ∀ u, f'.corr.get? u = f.corr.get? u := by
  obtain ⟨xz, h1, h2, h3, h4, h5⟩ := Flow.toXZC_ok hf.toFlowBase hk
  obtain ⟨xz0, x1, x2, x3⟩ := C30_causalflow f hv hloop hk ord hord ((C29_causalflow f hv hk ord hord).2 hf)
  rw [h1] at x1; cases x1
  refine ⟨xz, h1, fun given hg => ?_⟩
  have hv' : xz.og.Valid := by rw [h2]; exact hv
  obtain ⟨q, xz', q1, q2, q3, sp, q4⟩ := C61_corrections_round_trip xz hv' (by rw [h2]; exact hloop)
    ((C29_xzcorrections xz hv' ord hord).1 x3.1) x3.2.1 ord hord given hg enum he ord' hord'
  have hsg : SameGraph f.og xz'.og := by rw [← h2]; exact q3.graph
  have hp : ∀ u s, f.corr.get? u = some s → f.p u = s := fun u s hs => by unfold Flow.p; rw [hs]; rfl
  have hx : ∀ u w, InD xz'.x u w ↔ InD f.corr u w := by
    intro u w
    rw [q3.x, h4]
    exact XZCorrections.mem_getD
  have hcorr : ∀ u, xz'.x.get? u = f.corr.get? u := by
    intro u
    cases hs : f.corr.get? u with
    | none =>
      cases hs' : xz'.x.get? u with
      | none => rfl
      | some s =>
        have := q4.ok.domain u (Or.inl ⟨s, hs'⟩)
        rw [hsg.nodes, hsg.outputs] at this
        obtain ⟨t, ht⟩ := (hf.domain u).2 this
        rw [hs] at ht; cases ht
    | some s =>
      obtain ⟨w, rfl, -⟩ := hf.single u s hs
      obtain ⟨t, ht, -⟩ := (hx u w).2 ⟨_, hs, by simp⟩
      rw [ht]
      congr 1
      ext v
      have := hx u v
      unfold InD at this
      rw [ht, hs] at this
      simpa using this
  have hcf : IsCausalFlow ⟨xz'.og, xz'.x, xz'.layers⟩ := by
    constructor
    case toFlowBase =>
      refine ⟨fun u => ?_, fun u s v hs => ?_, q4.ok.layers⟩
      · dsimp only; rw [hcorr, hsg.nodes, hsg.outputs]; exact hf.domain u
      · dsimp only at hs ⊢; rw [hcorr] at hs; rw [hsg.nodes, hsg.inputs]; exact hf.image u s v hs
    case xy => intro u; rw [hsg.nodes, hsg.outputs, hsg.label]; exact hf.xy u
    case single =>
      intro u s hs
      dsimp only at hs ⊢
      have hs' := hs
      rw [hcorr] at hs
      obtain ⟨w, rfl, w1, w2, w3⟩ := hf.single u s hs
      refine ⟨w, rfl, (hsg.adj u w).2 w1, q4.ok.x_later u _ w hs' (by simp) (q4.targets.1 u _ w hs' (by simp)), fun v hvw hne hvn => ?_⟩
      obtain ⟨t, t1, t2⟩ := (q3.z u v).2 ((h5 u v).2 ⟨⟨w, by rw [hp u _ hs]; simp, (hsg.adj v w).1 hvw⟩, hne⟩)
      exact q4.ok.z_later u t v t1 t2 hvn
  have hb : ∀ w m, xz'.og.measurements.get? w = some m → ∃ a, m = .bloch a := by
    intro w m hm
    obtain ⟨hmk, -⟩ := xz'.og.postInit_ok q4.valid.post
    have hw : w ∈ xz'.og.nodes \ xz'.og.outputs.toFinset := by
      rw [← hmk, List.mem_toFinset, ← PyDict.get?_isSome_iff, hm]; rfl
    rw [Finset.mem_sdiff, List.mem_toFinset] at hw
    obtain ⟨m', hm', hp⟩ := hcf.xy w hw.1 hw.2
    have : m = m' := Option.some.inj (hm.symm.trans hm')
    subst this
    cases m with
    | bloch a => exact ⟨a, rfl⟩
    | pauli a => simp [Measurement.toPlaneOrAxis] at hp
  refine ⟨q, ⟨xz'.og, xz'.x, xz'.layers⟩, q1, ?_, hsg, hcf, hcorr⟩
  have e1 : q.toCausalFlow enum ord' = xz'.downcastBloch >>= fun xz => xz.toCausalFlow ord' := by
    simp only [Pattern.toCausalFlow, q2, bind, Except.bind]
  rw [e1, downcast_bind q4.valid, XZCorrections.C32_to_causalflow xz' q4.valid q4.xkeys ord' hord']
  exact ⟨hb, rfl, hcf⟩

/-! Non-vacuity: the causal flow of a path, which is also a gflow, and the corrections of its Pauli flow. -/

example : ∃ xz q f', (exFlow exLabels).toXZC = .ok xz ∧ xz.toPattern exOrd none = .ok q ∧ q.toCausalFlow exEnum exOrd = .ok f' ∧
    f'.corr.get? 1 = some {2} := by
  obtain ⟨xz, h1, h2⟩ := C61_causalflow_round_trip (exFlow exLabels) (exOg_valid _) (exOg_loop _) (by simp [exFlow, PyDict.keys])
    ((C29_causalflow (exFlow exLabels) (exOg_valid _) (by simp [exFlow, PyDict.keys]) exOrd exOrd_valid).1 rfl) exOrd exOrd_valid
    exEnum exEnum_valid exOrd exOrd_valid
  obtain ⟨q, f', h3, h4, -, -, h5⟩ := h2 none (by simp)
  exact ⟨xz, q, f', h1, h3, h4, h5 1⟩

example : ∃ xz q f', (exFlow exLabels).toXZG = .ok xz ∧ xz.toPattern exOrd none = .ok q ∧ q.toGFlow exEnum exOrd = .ok f' ∧
    f'.corr.get? 1 = some {2} := by
  obtain ⟨xz, h1, h2⟩ := C61_gflow_round_trip (exFlow exLabels) (exOg_valid _) (exOg_loop _) (by simp [exFlow, PyDict.keys])
    ((C29_gflow (exFlow exLabels) (exOg_valid _) (by simp [exFlow, PyDict.keys]) exOrd exOrd_valid).1 rfl) exOrd exOrd_valid
    exEnum exEnum_valid exOrd exOrd_valid
  obtain ⟨q, f', h3, h4, -, -, h5⟩ := h2 none (by simp)
  exact ⟨xz, q, f', h1, h3, h4, h5 1⟩

example : ∃ q xz', lateXZ.toPattern exOrd none = .ok q ∧ q.toXZCorrections exEnum exOrd = .ok xz' ∧ SameCorrections lateXZ xz' ∧
    InD xz'.x 5 1 := by
  obtain ⟨xz, x1, -, x3⟩ := C30_pauliflow lateFlow lateOg_valid (by simp [lateFlow, lateOg]) (by simp [lateFlow, PyDict.keys]) exOrd
    exOrd_valid rfl
  rw [lateFlow_xz] at x1; cases x1
  obtain ⟨q, xz', h1, h2, h3, -⟩ := C61_corrections_round_trip lateXZ lateOg_valid (by simp [lateXZ, lateOg])
    ((C29_xzcorrections lateXZ lateOg_valid exOrd exOrd_valid).1 x3.1) x3.2.1 exOrd exOrd_valid none (by simp) exEnum exEnum_valid exOrd exOrd_valid
  exact ⟨q, xz', h1, h2, h3, (h3.x 5 1).2 ⟨{1, 2, 6}, rfl, by simp⟩⟩

end Graphix
