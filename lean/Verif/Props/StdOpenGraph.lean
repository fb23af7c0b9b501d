import Verif.Proofs.StdOpenGraph
import Verif.Props.SpaceMin

/-!
# C33: from patterns to open graphs with corrections, and back
-/

namespace Graphix

open scoped symmDiff
open StdPattern

/-! ### Specification -/

/-- The number of commands `E` between two nodes. -/
def edgeCount (l : List Command) (u v : ℕ) : ℕ :=
  (l.filter fun c => match c with | .E a b => decide ((a = u ∧ b = v) ∨ (a = v ∧ b = u)) | _ => false).length

/-- The open graph and the corrections are those of the pattern: its nodes, inputs and outputs; an edge for each pair of
nodes that the pattern entangles an odd number of times; the measurements and Clifford corrections of the standard form;
`u` triggers an X (Z) correction on `w` if the standard form has `u` in the X (Z) domain of `w`. -/
structure Captures (p : Pattern) (sp : StdPattern) (xz : XZCorrections) : Prop where
  inputs : xz.og.inputs = p.inputs
  outputs : xz.og.outputs = p.outputs
  nodes : ∀ u, u ∈ xz.og.nodes ↔ u ∈ introduced p.inputs p.seq
  adj : ∀ u v, xz.og.Adj u v ↔ Odd (edgeCount p.seq u v)
  meas : ∀ w m, xz.og.measurements.get? w = some m ↔ ∃ c ∈ sp.mList, c.node = w ∧ c.measurement = m
  cliffords : xz.og.cliffords = sp.cDict
  x : ∀ u w, (∃ s, xz.x.get? u = some s ∧ w ∈ s) ↔ sp.XDom u w
  z : ∀ u w, (∃ s, xz.z.get? u = some s ∧ w ∈ s) ↔ sp.ZDom u w

/-! ### Proofs -/

theorem StdBody.edgeSide_fields {b b' : StdBody} {i j : ℕ} (h : b.edgeSide i j = .ok b') :
    b'.nList = b.nList ∧ b'.eSet = b.eSet := by
  unfold StdBody.edgeSide at h
  simp only [] at h
  cases hc : b.cDict.get? i with
  | none =>
    rw [hc] at h
    cases h
    exact ⟨rfl, rfl⟩
  | some g =>
    rw [hc] at h
    obtain ⟨c, -, h⟩ := (bind_ok_iff _ _ _).1 h
    cases h
    exact ⟨rfl, rfl⟩

/-- The `N` commands and the edges of the standard form. -/
theorem StdBody.run_fields {b b' : StdBody} {l : List Command} (h : b.run l = .ok b') :
    b'.nList = b.nList ++ l.filterMap (fun c => match c with | .N n st => some (n, st) | _ => none) ∧
    ∀ u v, s(u, v) ∈ b'.eSet ↔ (s(u, v) ∈ b.eSet ↔ ¬ Odd (edgeCount l u v)) := by
  induction l generalizing b with
  | nil => cases h; simp [edgeCount]
  | cons c l ih =>
    unfold StdBody.run at h
    obtain ⟨b1, hb1, h⟩ := (bind_ok_iff _ _ _).1 h
    obtain ⟨i1, i2⟩ := ih h
    have key : b1.nList = b.nList ++ [c].filterMap (fun c => match c with | .N n st => some (n, st) | _ => none) ∧
        ∀ u v, s(u, v) ∈ b1.eSet ↔ (s(u, v) ∈ b.eSet ↔ ¬ Odd (edgeCount [c] u v)) := by
      cases c with
      | N n st => cases hb1; exact ⟨rfl, fun u v => by simp [edgeCount]⟩
      | E x y =>
        unfold StdBody.step at hb1
        obtain ⟨b2, hb2, hb1⟩ := (bind_ok_iff _ _ _).1 hb1
        obtain ⟨b3, hb3, hb1⟩ := (bind_ok_iff _ _ _).1 hb1
        cases hb1
        obtain ⟨e1, e2⟩ := StdBody.edgeSide_fields hb2
        obtain ⟨e3, e4⟩ := StdBody.edgeSide_fields hb3
        refine ⟨by simp [e3, e1], fun u v => ?_⟩
        show s(u, v) ∈ b3.eSet ∆ {s(x, y)} ↔ _
        rw [e4, e2, Finset.mem_symmDiff, Finset.mem_singleton, Sym2.eq_iff]
        unfold edgeCount
        by_cases hxy : (x = u ∧ y = v) ∨ (x = v ∧ y = u)
        · have : (u = x ∧ v = y) ∨ (u = y ∧ v = x) := by
            rcases hxy with ⟨a, b⟩ | ⟨a, b⟩
            · exact Or.inl ⟨a.symm, b.symm⟩
            · exact Or.inr ⟨b.symm, a.symm⟩
          simp [hxy, this]
        · have : ¬ ((u = x ∧ v = y) ∨ (u = y ∧ v = x)) := by
            rintro (⟨a, b⟩ | ⟨a, b⟩)
            · exact hxy (Or.inl ⟨a.symm, b.symm⟩)
            · exact hxy (Or.inr ⟨b.symm, a.symm⟩)
          simp [hxy, this]
      | M n m s t =>
        simp only [StdBody.step, StdBody.measureCase] at hb1
        cases hc : b.cDict.get? n with
        | none =>
          rw [hc] at hb1
          cases hb1
          exact ⟨by simp, fun u v => by simp [edgeCount]⟩
        | some g =>
          rw [hc] at hb1
          simp only [] at hb1
          split at hb1
          · cases hb1
            exact ⟨by simp, fun u v => by simp [edgeCount]⟩
          · cases hb1
      | X n d =>
        simp only [StdBody.step, StdBody.correctionCase] at hb1
        split at hb1 <;> cases hb1
        exact ⟨by simp, fun u v => by simp [edgeCount]⟩
      | Z n d =>
        simp only [StdBody.step, StdBody.correctionCase] at hb1
        split at hb1 <;> cases hb1
        exact ⟨by simp, fun u v => by simp [edgeCount]⟩
      | C n c => cases hb1; exact ⟨by simp, fun u v => by simp [edgeCount]⟩
      | S n d => cases hb1; exact ⟨by simp, fun u v => by simp [edgeCount]⟩
      | T => cases hb1; exact ⟨by simp, fun u v => by simp [edgeCount]⟩
    constructor
    · rw [i1, key.1, List.append_assoc, ← List.filterMap_append]; rfl
    · intro u v
      have hc : edgeCount (c :: l) u v = edgeCount [c] u v + edgeCount l u v := by
        unfold edgeCount
        rw [← List.length_append, ← List.filter_append]; rfl
      rw [i2, key.2, hc, Nat.odd_add]
      by_cases h1 : Odd (edgeCount [c] u v) <;> by_cases h2 : Odd (edgeCount l u v) <;>
        simp [h1, h2, ← Nat.not_odd_iff_even]

section

variable {sp : StdPattern} {edges : List (ℕ × ℕ)}

theorem Enumerates.mem (he : Enumerates edges sp.eSet) (u v : ℕ) :
    ((u, v) ∈ edges ∨ (v, u) ∈ edges) ↔ s(u, v) ∈ sp.eSet := by
  rw [← he.2, List.mem_toFinset, List.mem_map]
  constructor
  · rintro (h | h)
    · exact ⟨(u, v), h, rfl⟩
    · exact ⟨(v, u), h, Sym2.eq_swap⟩
  · rintro ⟨⟨a, b⟩, h, hab⟩
    simp only [Sym2.eq_iff] at hab
    rcases hab with ⟨rfl, rfl⟩ | ⟨rfl, rfl⟩
    · exact Or.inl h
    · exact Or.inr h

theorem StdPattern.WF.graphNodes (hw : sp.WF) (he : Enumerates edges sp.eSet) : sp.graphNodes edges = sp.nodeList.toFinset := by
  ext k
  have h1 : ∀ e ∈ edges, e.1 ∈ sp.nodeList ∧ e.2 ∈ sp.nodeList := by
    intro e h
    have : s(e.1, e.2) ∈ sp.eSet := (Enumerates.mem he e.1 e.2).1 (Or.inl h)
    exact ⟨hw.edge _ this _ (Sym2.mem_mk_left _ _), hw.edge _ this _ (Sym2.mem_mk_right _ _)⟩
  unfold StdPattern.graphNodes StdPattern.nodeList
  simp only [Finset.mem_union, List.mem_toFinset, List.mem_append]
  constructor
  · rintro (((h | h) | h) | h)
    · exact Or.inl h
    · exact Or.inr h
    · obtain ⟨e, he, rfl⟩ := List.mem_map.1 h; exact List.mem_append.1 (h1 e he).1
    · obtain ⟨e, he, rfl⟩ := List.mem_map.1 h; exact List.mem_append.1 (h1 e he).2
  · rintro (h | h)
    · exact Or.inl (Or.inl (Or.inl h))
    · exact Or.inl (Or.inl (Or.inr h))

theorem measDict_spec (ms : List MCmd) (hnd : (ms.map MCmd.node).Nodup) (d : PyDict ℕ Measurement) (hd : d.keys.Nodup)
    (hdis : ∀ n ∈ ms.map MCmd.node, n ∉ d.keys) :
    (ms.foldl (fun d m => PyDict.set d m.node m.measurement) d).keys.Nodup ∧
    (∀ k, k ∈ (ms.foldl (fun d m => PyDict.set d m.node m.measurement) d).keys ↔ k ∈ d.keys ∨ k ∈ ms.map MCmd.node) ∧
    ∀ w m, (ms.foldl (fun d m => PyDict.set d m.node m.measurement) d).get? w = some m ↔
      d.get? w = some m ∨ ∃ c ∈ ms, c.node = w ∧ c.measurement = m := by
  induction ms generalizing d with
  | nil => simpa using hd
  | cons c ms ih =>
    rw [List.map_cons, List.nodup_cons] at hnd
    rw [List.foldl_cons]
    obtain ⟨a1, a2, a3⟩ := ih hnd.2 (d.set c.node c.measurement) (PyDict.keys_set_nodup hd _ _) (by
      intro n hn
      rw [PyDict.mem_keys_set, not_or]
      exact ⟨fun h => hnd.1 (h ▸ hn), hdis n (by simp [hn])⟩)
    refine ⟨a1, ?_, ?_⟩
    · intro k; rw [a2, PyDict.mem_keys_set, List.map_cons, List.mem_cons]; tauto
    · intro w m
      rw [a3, PyDict.get?_set]
      by_cases h : c.node = w
      · subst h
        rw [if_pos rfl]
        have h0 : d.get? c.node = none := (PyDict.get?_eq_none_iff _ _).2 (hdis _ (by simp))
        have h1 : ∀ c' ∈ ms, c'.node ≠ c.node := fun c' hc' h => hnd.1 (h ▸ List.mem_map_of_mem hc')
        rw [h0]
        constructor
        · rintro (h | ⟨c', hc', h, -⟩)
          · exact Or.inr ⟨c, by simp, rfl, Option.some.inj h⟩
          · exact absurd h (h1 c' hc')
        · rintro (h | ⟨c', hc', h, h2⟩)
          · cases h
          · rcases List.mem_cons.1 hc' with rfl | hc'
            · exact Or.inl (by rw [h2])
            · exact absurd h (h1 c' hc')
      · rw [if_neg h]
        constructor
        · rintro (h | ⟨c', hc', h⟩)
          · exact Or.inl h
          · exact Or.inr ⟨c', by simp [hc'], h⟩
        · rintro (h' | ⟨c', hc', h1, h2⟩)
          · exact Or.inl h'
          · rcases List.mem_cons.1 hc' with rfl | hc'
            · exact absurd h1 h
            · exact Or.inr ⟨c', hc', h1, h2⟩

/-- `to_opengraph` succeeds on the standard form of a pattern that prepares `|+⟩` states. -/
theorem StdPattern.WF.toOpenGraph (hw : sp.WF) (hplus : ∀ n ∈ sp.nList, n.2 = PlanarState.plus)
    (he : Enumerates edges sp.eSet) :
    ∃ og, sp.toOpenGraph edges = .ok og ∧ og.Valid ∧ og.nodes = sp.nodeList.toFinset ∧ og.edges = edges ∧
      og.inputs = sp.inputs ∧ og.outputs = sp.outputs ∧ og.cliffords = sp.cDict ∧
      ∀ w m, og.measurements.get? w = some m ↔ ∃ c ∈ sp.mList, c.node = w ∧ c.measurement = m := by
  obtain ⟨m1, m2, m3⟩ := measDict_spec sp.mList hw.m_nodup [] (by simp [PyDict.keys]) (by simp [PyDict.keys])
  have hpost : (⟨sp.graphNodes edges, edges, sp.inputs, sp.outputs,
      sp.mList.foldl (fun d m => PyDict.set d m.node m.measurement) [], sp.cDict⟩ : OpenGraph).postInit = .ok () := by
    have hmk : (sp.mList.foldl (fun d m => PyDict.set d m.node m.measurement) ([] : PyDict ℕ Measurement)).keys.toFinset =
        sp.measNodes.toFinset := by
      ext k; rw [List.mem_toFinset, m2]; simp [PyDict.keys, StdPattern.measNodes]
    have hout : ∀ k ∈ sp.outputs, k ∈ sp.nodeList ∧ k ∉ sp.measNodes := fun k hk => (hw.out k).1 hk
    unfold OpenGraph.postInit
    simp only [hmk, hw.graphNodes he]
    rw [if_neg, if_neg, if_neg, if_neg, if_neg, if_neg, if_neg, if_neg]
    · rw [not_not]; intro k hk; simpa using hw.lc k (by simpa using hk)
    · rw [not_not]; exact List.toFinset_card_of_nodup hw.out_nodup
    · rw [not_not]
      have := hw.nodes_nodup
      unfold StdPattern.nodeList at this
      exact List.toFinset_card_of_nodup (List.nodup_append.1 this).1
    · rw [not_not]; ext k
      simp only [Finset.mem_sdiff, List.mem_toFinset]
      constructor
      · rintro ⟨h1, h2⟩; by_contra h3; exact h2 ((hw.out k).2 ⟨h1, h3⟩)
      · intro h; exact ⟨hw.m_sub k h, fun h2 => (hout k h2).2 h⟩
    · rw [not_not]; ext k
      simp only [Finset.mem_inter, List.mem_toFinset, Finset.notMem_empty, iff_false]
      exact fun h => (hout k h.1).2 h.2
    · rw [not_not]; intro k hk; simpa using (hout k (by simpa using hk)).1
    · rw [not_not]; intro k hk
      have : k ∈ sp.inputs := by simpa using hk
      simp [StdPattern.nodeList, this]
    · rw [not_not]; intro k hk; simpa using hw.m_sub k (by simpa using hk)
  have hval : (⟨sp.graphNodes edges, edges, sp.inputs, sp.outputs,
      sp.mList.foldl (fun d m => PyDict.set d m.node m.measurement) [], sp.cDict⟩ : OpenGraph).Valid := by
    refine ⟨hpost, ?_, ?_, m1, hw.nc⟩
    · intro u v h
      simp only [StdPattern.graphNodes, Finset.mem_union, List.mem_toFinset]
      exact ⟨Or.inl (Or.inr (List.mem_map.2 ⟨_, h, rfl⟩)), Or.inr (List.mem_map.2 ⟨_, h, rfl⟩)⟩
    · have := he.1
      rw [List.Nodup, List.pairwise_map] at this
      refine this.imp ?_
      intro e e' h
      refine ⟨fun h' => h (by rw [h']), fun h' => h ?_⟩
      rw [h']; exact Sym2.eq_swap
  refine ⟨_, ?_, hval, hw.graphNodes he, rfl, rfl, rfl, rfl, ?_⟩
  · unfold StdPattern.toOpenGraph
    rw [if_neg, if_neg]
    · simp only [hpost]
    · rintro ⟨e, h, h'⟩
      have : s(e.1, e.2) ∈ sp.eSet := (Enumerates.mem he e.1 e.2).1 (Or.inl h)
      exact hw.loop _ this (by rw [h']; exact Sym2.mk_isDiag_iff.2 rfl)
    · rintro ⟨n, hn, h⟩; exact h (hplus n hn)
  · intro w m
    rw [m3]; simp

/-- A domain contains only nodes measured before. -/
theorem StdPattern.WF.earlier (hw : sp.WF) {u w : ℕ} (h : sp.XDom u w ∨ sp.ZDom u w) :
    u ∈ sp.measNodes ∧ sp.measNodes.idxOf u < sp.measNodes.idxOf w ∧ w ∈ sp.nodeList := by
  have hm : ∀ m ∈ sp.mList, m.node = w → (u ∈ m.sDomain ∨ u ∈ m.tDomain) →
      u ∈ sp.measNodes ∧ sp.measNodes.idxOf u < sp.measNodes.idxOf w ∧ w ∈ sp.nodeList := by
    rintro m hm rfl hu
    obtain ⟨a, c, hac⟩ := List.append_of_mem hm
    have h1 := hw.mo a m c hac
    have hua : u ∈ a.map MCmd.node := hu.elim (h1.1 u) (h1.2 u)
    have hnd := hw.m_nodup
    unfold StdPattern.measNodes at hnd ⊢
    rw [hac, List.map_append, List.map_cons, List.nodup_append] at hnd
    have hna : m.node ∉ a.map MCmd.node := fun h => hnd.2.2 _ h _ (by simp) rfl
    refine ⟨?_, ?_, hw.m_sub _ (List.mem_map_of_mem hm)⟩
    · rw [hac, List.map_append]; exact List.mem_append_left _ hua
    · rw [hac, List.map_append, List.map_cons, List.idxOf_append_of_mem hua, List.idxOf_append_of_notMem hna]
      have := List.idxOf_lt_length_of_mem hua
      omega
  have hd : ∀ (d : PyDict ℕ (Finset ℕ)), d.keys.Nodup → (∀ k ∈ PyDict.keys d, k ∈ sp.outputs) →
      (∀ k, ∀ i ∈ domAt d k, i ∈ sp.measNodes) → ∀ D, (w, D) ∈ d → u ∈ D →
      u ∈ sp.measNodes ∧ sp.measNodes.idxOf u < sp.measNodes.idxOf w ∧ w ∈ sp.nodeList := by
    intro d hk ho hdm D hD hu
    have hwo := (hw.out w).1 (ho w (List.mem_map.2 ⟨_, hD, rfl⟩))
    have hum : u ∈ sp.measNodes := hdm w u (by
      unfold domAt; rw [PyDict.get?_of_mem hk hD]; exact hu)
    refine ⟨hum, ?_, hwo.1⟩
    rw [List.idxOf_eq_length hwo.2]
    exact List.idxOf_lt_length_of_mem hum
  rcases h with (⟨m, h1, h2, h3⟩ | ⟨D, h1, h2⟩) | (⟨m, h1, h2, h3⟩ | ⟨D, h1, h2⟩)
  · exact hm m h1 h2 (Or.inl h3)
  · exact hd sp.xDict hw.nx hw.lx hw.dx D h1 h2
  · exact hm m h1 h2 (Or.inr h3)
  · exact hd sp.zDict hw.nz hw.lz hw.dz D h1 h2

theorem not_hasCycle_of_rank {R : ℕ → ℕ → Prop} (f : ℕ → ℕ) (h : ∀ u v, R u v → f u < f v) : ¬ HasCycle R := by
  rintro ⟨n, hn⟩
  have : ∀ {a b}, Relation.TransGen R a b → f a < f b := by
    intro a b hab
    induction hab with
    | single h1 => exact h _ _ h1
    | tail _ h1 ih => exact ih.trans (h _ _ h1)
  exact lt_irrefl _ (this hn)

/-- The standard form is converted to corrections. -/
theorem StdPattern.WF.toXZCorrections (hw : sp.WF) (hplus : ∀ n ∈ sp.nList, n.2 = PlanarState.plus)
    (he : Enumerates edges sp.eSet) {ord : SetOrd} (hord : ord.Valid) :
    ∃ xz, sp.toXZCorrections edges ord = .ok xz ∧ sp.toOpenGraph edges = .ok xz.og ∧ xz.og.Valid ∧
      xz.og.nodes = sp.nodeList.toFinset ∧ xz.og.edges = edges ∧
      xz.og.inputs = sp.inputs ∧ xz.og.outputs = sp.outputs ∧ xz.og.cliffords = sp.cDict ∧
      (∀ w m, xz.og.measurements.get? w = some m ↔ ∃ c ∈ sp.mList, c.node = w ∧ c.measurement = m) ∧
      (∀ u w, InD xz.x u w ↔ sp.XDom u w) ∧ (∀ u w, InD xz.z u w ↔ sp.ZDom u w) ∧
      CorrectionsOk xz ∧ xz.checkWellFormed ord = .ok () ∧ xz.Targets := by
  obtain ⟨og, h1, hv, h2, h3, h4, h5, h6, h7⟩ := hw.toOpenGraph hplus he
  obtain ⟨c1, c2, c3, c4, c5, c6⟩ := corrections_spec sp hord
  have hmo : ∀ u, u ∈ sp.measNodes → u ∈ og.nodes ∧ u ∉ og.outputs := by
    intro u hu
    rw [h2, h5, List.mem_toFinset]
    exact ⟨hw.m_sub u hu, fun h => ((hw.out u).1 h).2 hu⟩
  have hcor : ∀ u v, Corrects (sp.corrections ord).1 (sp.corrections ord).2 u v → sp.XDom u v ∨ sp.ZDom u v := by
    rintro u v (h | h)
    · exact Or.inl ((c3 u v).1 h)
    · exact Or.inr ((c4 u v).1 h)
  have g1 : ∀ u, u ∈ (sp.corrections ord).1.keys ∨ u ∈ (sp.corrections ord).2.keys → u ∈ og.nodes ∧ u ∉ og.outputs := by
    rintro u (h | h)
    · obtain ⟨w, h⟩ := c5 u h; exact hmo u (hw.earlier (Or.inl h)).1
    · obtain ⟨w, h⟩ := c6 u h; exact hmo u (hw.earlier (Or.inr h)).1
  have g2 : ∀ u v, Corrects (sp.corrections ord).1 (sp.corrections ord).2 u v → v ∈ og.nodes := by
    intro u v h
    have := (hw.earlier (hcor u v h)).2.2
    rw [h2, List.mem_toFinset]; exact this
  have g3 := not_hasCycle_of_rank (R := Corrects (sp.corrections ord).1 (sp.corrections ord).2) _
    fun u v h => (hw.earlier (hcor u v h)).2.1
  obtain ⟨xz, x1, rfl, x3, x4, x5, x6⟩ := (C51_from_measured_nodes_mapping og hv ord hord _ _ c1 c2).1 ⟨g1, g2, g3⟩
  refine ⟨xz, ?_, h1, hv, h2, h3, h4, h5, h6, h7, by rw [x3]; exact c3, by rw [x4]; exact c4, x5, x6, ?_⟩
  · simp only [StdPattern.toXZCorrections, h1, bind, Except.bind, x1]
  · constructor
    · intro u s v hs hv'
      have := (hw.earlier (Or.inl ((c3 u v).1 ⟨s, by rw [← x3]; exact hs, hv'⟩))).2.2
      rw [h2, List.mem_toFinset]; exact this
    · intro u s v hs hv'
      have := (hw.earlier (Or.inr ((c4 u v).1 ⟨s, by rw [← x4]; exact hs, hv'⟩))).2.2
      rw [h2, List.mem_toFinset]; exact this

/-- The domains of a measured node. -/
theorem StdPattern.WF.dom_meas (hw : sp.WF) {m : MCmd} (hm : m ∈ sp.mList) (u : ℕ) :
    (sp.XDom u m.node ↔ u ∈ m.sDomain) ∧ (sp.ZDom u m.node ↔ u ∈ m.tDomain) := by
  have huniq : ∀ m' ∈ sp.mList, m'.node = m.node → m' = m := fun m' hm' h =>
    List.inj_on_of_nodup_map hw.m_nodup hm' hm h
  have hno : m.node ∉ sp.outputs := fun h => ((hw.out _).1 h).2 (List.mem_map_of_mem hm)
  constructor
  · constructor
    · rintro (⟨m', h1, h2, h3⟩ | ⟨D, hD, -⟩)
      · exact huniq m' h1 h2 ▸ h3
      · exact absurd (hw.lx _ (List.mem_map.2 ⟨_, hD, rfl⟩)) hno
    · intro h; exact Or.inl ⟨m, hm, rfl, h⟩
  · constructor
    · rintro (⟨m', h1, h2, h3⟩ | ⟨D, hD, -⟩)
      · exact huniq m' h1 h2 ▸ h3
      · exact absurd (hw.lz _ (List.mem_map.2 ⟨_, hD, rfl⟩)) hno
    · intro h; exact Or.inl ⟨m, hm, rfl, h⟩

/-- The domains of an output node. -/
theorem StdPattern.WF.dom_out (hw : sp.WF) {w : ℕ} (hn : w ∉ sp.measNodes) (u : ℕ) :
    (sp.XDom u w ↔ u ∈ domAt sp.xDict w) ∧ (sp.ZDom u w ↔ u ∈ domAt sp.zDict w) := by
  have key : ∀ d : PyDict ℕ (Finset ℕ), d.keys.Nodup → ((∃ D, (w, D) ∈ d ∧ u ∈ D) ↔ u ∈ domAt d w) := by
    intro d hd
    unfold domAt
    constructor
    · rintro ⟨D, hD, h⟩; rw [PyDict.get?_of_mem hd hD]; exact h
    · intro h
      cases hg : d.get? w with
      | none => rw [hg] at h; simp at h
      | some D => rw [hg] at h; exact ⟨D, PyDict.mem_of_get? hg, h⟩
  constructor
  · rw [← key _ hw.nx]
    refine ⟨fun h => h.resolve_left ?_, Or.inr⟩
    rintro ⟨m, hm, rfl, -⟩; exact hn (List.mem_map_of_mem hm)
  · rw [← key _ hw.nz]
    refine ⟨fun h => h.resolve_left ?_, Or.inr⟩
    rintro ⟨m, hm, rfl, -⟩; exact hn (List.mem_map_of_mem hm)

theorem domAt_empty {d : PyDict ℕ (Finset ℕ)} {w : ℕ} (h : w ∉ PyDict.keys d) : domAt d w = ∅ := by
  unfold domAt; rw [(PyDict.get?_eq_none_iff d w).2 h]; rfl

/-- The pattern built from the corrections does the same as the standard form. -/
theorem StdPattern.WF.sem_patternCmds (hw : sp.WF) (hplus : ∀ n ∈ sp.nList, n.2 = PlanarState.plus)
    {xz : XZCorrections} (hn : xz.og.nodes = sp.nodeList.toFinset) (he : xz.og.edges = edges)
    (hi : xz.og.inputs = sp.inputs) (ho : xz.og.outputs = sp.outputs) (hc : xz.og.cliffords = sp.cDict)
    (hm : ∀ w m, xz.og.measurements.get? w = some m ↔ ∃ c ∈ sp.mList, c.node = w ∧ c.measurement = m)
    {order ns : List ℕ} (hnd : order.Nodup) (hset : ∀ u, u ∈ order ↔ u ∈ xz.og.nodes ∧ u ∉ xz.og.outputs)
    (hns : ns.Nodup) (hnm : ∀ n, n ∈ ns ↔ n ∈ xz.og.nodes ∧ n ∉ xz.og.inputs) {xl zl : ℕ → List ℕ}
    (hxn : ∀ u, (xl u).Nodup) (hzn : ∀ u, (zl u).Nodup)
    (hx : ∀ u w, w ∈ xl u ↔ sp.XDom u w) (hz : ∀ u w, w ∈ zl u ↔ sp.ZDom u w)
    (hlater : ∀ pre u post, order = pre ++ u :: post → ∀ w, w ∈ xl u ∨ w ∈ zl u → w ∉ pre ∧ w ≠ u) (r : ℕ → Bool) :
    OpPhaseEq (semCmds r (sp.cmds edges)) (semCmds r (patternCmds ns xz.og xz.og.measOf xl zl order)) := by
  have hord : ∀ u, u ∈ order ↔ u ∈ sp.measNodes := by
    intro u
    rw [hset, hn, ho, List.mem_toFinset]
    constructor
    · rintro ⟨h1, h2⟩; by_contra h3; exact h2 ((hw.out u).2 ⟨h1, h3⟩)
    · intro h; exact ⟨hw.m_sub u h, fun h2 => ((hw.out u).1 h2).2 h⟩
  set l := xz.og.nodes.sort (· ≤ ·) with hl
  have hlnd : l.Nodup := Finset.sort_nodup _ _
  have hlm : ∀ n, n ∈ l ↔ n ∈ sp.nodeList := fun n => by rw [hl, Finset.mem_sort, hn, List.mem_toFinset]
  have hout : ∀ k ∈ sp.outputs, k ∈ l := fun k hk => (hlm k).2 ((hw.out k).1 hk).1
  have hlen : (sp.nList.map Prod.fst).length = ns.length := by
    have hnn := hw.nodes_nodup
    unfold StdPattern.nodeList at hnn
    rw [List.nodup_append] at hnn
    rw [← List.toFinset_card_of_nodup hns, ← List.toFinset_card_of_nodup hnn.2.1]
    congr 1
    ext k
    rw [List.mem_toFinset, List.mem_toFinset, hnm, hn, hi, List.mem_toFinset, StdPattern.nodeList, List.mem_append]
    constructor
    · intro h; exact ⟨Or.inr h, fun h2 => hnn.2.2 k h2 k h rfl⟩
    · rintro ⟨h | h, h2⟩
      · exact absurd h h2
      · exact h
  have hN : sp.nList.map (fun n => Command.N n.1 n.2) = (sp.nList.map Prod.fst).map (Command.N · PlanarState.plus) := by
    rw [List.map_map]
    apply List.map_congr_left
    intro n h
    simp [hplus n h]
  -- both sides as products of local operators
  have e1 : ∀ ψ, semCmds r (sp.cmds edges) ψ = locOps (fun w => accum r (sp.mList.map MCmd.toCmd ++
      (sp.zDict.map (fun kv => .Z kv.1 kv.2) ++ (sp.xDict.map (fun kv => .X kv.1 kv.2) ++
      sp.cDict.map (fun kv => .C kv.1 kv.2)))) w 1) l (czList edges (prepList ns ψ)) := by
    intro ψ
    unfold StdPattern.cmds
    simp only [List.append_assoc]
    rw [semCmds_append, semCmds_append, hN, semCmds_prepList, semCmds_edgeList, prepList_congr hlen]
    conv_lhs => rw [← locOps_one l (czList edges (prepList ns ψ))]
    rw [semCmds_locOps hlnd]
    intro c hc'
    simp only [List.mem_append, List.mem_map] at hc'
    rcases hc' with ⟨m, hm', rfl⟩ | ⟨kv, hkv, rfl⟩ | ⟨kv, hkv, rfl⟩ | ⟨kv, hkv, rfl⟩
    · exact ⟨m.node, _, rfl, (hlm _).2 (hw.m_sub _ (List.mem_map_of_mem hm'))⟩
    · exact ⟨kv.1, _, rfl, hout _ (hw.lz _ (List.mem_map_of_mem hkv))⟩
    · exact ⟨kv.1, _, rfl, hout _ (hw.lx _ (List.mem_map_of_mem hkv))⟩
    · exact ⟨kv.1, _, rfl, hout _ (hw.lc _ (List.mem_map_of_mem hkv))⟩
  have e2 : ∀ ψ, semCmds r (patternCmds ns xz.og xz.og.measOf xl zl order) ψ =
      locOps (fun w => accum r (order.flatMap (blockOf xz.og.measOf xl zl) ++
        sp.cDict.map (fun kv => Command.C kv.1 kv.2)) w 1) l (czList edges (prepList ns ψ)) := by
    intro ψ
    unfold patternCmds
    rw [semCmds_append, semCmds_append, semCmds_prepList, semCmds_edgeList, he, hc]
    conv_lhs => rw [← locOps_one l (czList edges (prepList ns ψ))]
    rw [semCmds_locOps hlnd]
    intro c hc'
    rcases List.mem_append.1 hc' with hc' | hc'
    · obtain ⟨u, hu, hc'⟩ := List.mem_flatMap.1 hc'
      unfold blockOf at hc'
      rcases List.mem_cons.1 hc' with rfl | hc'
      · exact ⟨u, _, rfl, (hlm u).2 (hw.m_sub u ((hord u).1 hu))⟩
      · rcases List.mem_append.1 hc' with hc' | hc'
        · obtain ⟨k, hk, rfl⟩ := List.mem_map.1 hc'
          exact ⟨k, _, rfl, (hlm k).2 (hw.earlier (Or.inr ((hz u k).1 hk))).2.2⟩
        · obtain ⟨k, hk, rfl⟩ := List.mem_map.1 hc'
          exact ⟨k, _, rfl, (hlm k).2 (hw.earlier (Or.inl ((hx u k).1 hk))).2.2⟩
    · obtain ⟨kv, hkv, rfl⟩ := List.mem_map.1 hc'
      exact ⟨kv.1, _, rfl, hout _ (hw.lc _ (List.mem_map_of_mem hkv))⟩
  have key := locOps_phase (l := l)
    (F := fun w => accum r (sp.mList.map MCmd.toCmd ++
      (sp.zDict.map (fun kv => .Z kv.1 kv.2) ++ (sp.xDict.map (fun kv => .X kv.1 kv.2) ++
      sp.cDict.map (fun kv => .C kv.1 kv.2)))) w 1)
    (G := fun w => accum r (order.flatMap (blockOf xz.og.measOf xl zl) ++
        sp.cDict.map (fun kv => Command.C kv.1 kv.2)) w 1) ?_
  · exact (OpPhaseEq.of_eq e1).trans ((key.comp_right _).trans (OpPhaseEq.of_eq e2).symm)
  intro w hwl
  simp only [accum_append]
  apply accum_phase
  rw [accum_zdict hw.nz, accum_xdict hw.nx]
  refine MatPhaseEq.trans ?_ (accum_blocks hnd hxn hzn hlater w).symm
  have hpar : ∀ (f : ℕ → List ℕ) (D : Finset ℕ), (∀ u, w ∈ f u ↔ u ∈ D) → (∀ u ∈ D, u ∈ sp.measNodes) →
      xorl order (fun u => r u && decide (w ∈ f u)) = parity r D := by
    intro f D h1 h2
    rw [← xorl_parity hnd r (D := D) fun u hu => (hord u).2 (h2 u hu)]
    apply xorl_congr
    intro u _
    simp only [h1]
  by_cases hwm : w ∈ sp.measNodes
  · obtain ⟨m, hm', rfl⟩ := List.mem_map.1 hwm
    rw [if_pos ((hord _).2 hwm), (accum_mcmds hw.m_nodup 1).2 m hm' rfl]
    have hno : m.node ∉ sp.outputs := fun h => ((hw.out _).1 h).2 hwm
    rw [domAt_empty fun h => hno (hw.lx _ h), domAt_empty fun h => hno (hw.lz _ h)]
    have hmeas : xz.og.measOf m.node = m.measurement := by
      unfold OpenGraph.measOf
      rw [(hm m.node m.measurement).2 ⟨m, hm', rfl, rfl⟩]; rfl
    have h1 := hpar xl m.sDomain (fun u => by rw [hx, (hw.dom_meas hm' u).1])
      fun u hu => (hw.earlier (Or.inl (((hw.dom_meas hm' u).1).2 hu))).1
    have h2 := hpar zl m.tDomain (fun u => by rw [hz, (hw.dom_meas hm' u).2])
      fun u hu => (hw.earlier (Or.inr (((hw.dom_meas hm' u).2).2 hu))).1
    rw [h1, h2, hmeas]
    apply MatPhaseEq.of_eq
    simp [parity_empty, powB, pauliXZ]
  · rw [if_neg fun h => hwm ((hord _).1 h), (accum_mcmds hw.m_nodup 1).1 hwm]
    have h1 := hpar xl (domAt sp.xDict w) (fun u => by rw [hx, (hw.dom_out hwm u).1]) (hw.dx w)
    have h2 := hpar zl (domAt sp.zDict w) (fun u => by rw [hz, (hw.dom_out hwm u).2]) (hw.dz w)
    rw [h1, h2]
    apply MatPhaseEq.of_eq
    rw [Matrix.mul_one]; rfl

end

/-- **C33.** For every runnable pattern that prepares `|+⟩` states (and whose standardization succeeds), and for every
iteration order of sets: `to_opengraph` and `to_xzcorrections` succeed; the open graph and the corrections are those of
the pattern (`Captures`); the corrections are well formed; and `to_pattern` builds from them, for every compatible total
order and for the default one, a runnable pattern with the same inputs and outputs that does, in every branch, the same as
the original pattern up to a global phase. -/
theorem C33_to_xzcorrections (p : Pattern) (hp : p.OutputsOk) (hE : NoSelfLoop p.seq)
    (hplus : ∀ n st, Command.N n st ∈ p.seq → st = PlanarState.plus) (sp : StdPattern)
    (h : StdPattern.fromPattern p = .ok sp) (edges : List (ℕ × ℕ)) (he : StdPattern.Enumerates edges sp.eSet)
    (ord : SetOrd) (hord : ord.Valid) :
    ∃ xz, sp.toXZCorrections edges ord = .ok xz ∧ sp.toOpenGraph edges = .ok xz.og ∧ Captures p sp xz ∧ xz.og.Valid ∧
      CorrectionsOk xz ∧ xz.checkWellFormed ord = .ok () ∧
      ∀ given : Option (List ℕ), (∀ o, given = some o → xz.isCompatible o = .ok true) →
        ∃ q, xz.toPattern ord given = .ok q ∧ q.checkRunnability = .ok () ∧ q.inputs = p.inputs ∧ q.outputs = p.outputs ∧
          ∀ r, OpPhaseEq (semCmds r p.seq) (semCmds r q.seq) := by
  have hw := fromPattern_wf hp hE h
  obtain ⟨-, hrun, e1, e2⟩ := fromPattern_ok h
  obtain ⟨f1, f2⟩ := StdBody.run_fields hrun
  have hpl : ∀ n ∈ sp.nList, n.2 = PlanarState.plus := by
    intro n hn
    rw [f1] at hn
    simp only [StdBody.init, List.nil_append, List.mem_filterMap] at hn
    obtain ⟨c, hc, hcn⟩ := hn
    cases c <;> simp only [Option.some.injEq, reduceCtorEq] at hcn
    subst hcn
    exact hplus _ _ hc
  have hi := fromPattern_inv hE h
  obtain ⟨xz, h1, h2, hv, h3, h4, h5, h6, h7, h8, h9, h10, h11, h12, h13⟩ := hw.toXZCorrections hpl he hord
  refine ⟨xz, h1, h2, ⟨by rw [h5, e1], by rw [h6, e2], ?_, ?_, h8, h7, h9, h10⟩, hv, h11, h12, ?_⟩
  · intro u
    rw [h3, List.mem_toFinset]
    unfold StdPattern.nodeList introduced
    rw [e1, hi.nl]
  · intro u v
    unfold OpenGraph.Adj
    rw [h4, Enumerates.mem he, f2]
    simp [StdBody.init]
  · intro given hg
    obtain ⟨q, q1, q2, q3, q4, -, q6, -, ns, q8, q9, q10⟩ := C31_to_pattern xz hv ord hord h12 h13 given hg
    refine ⟨q, q1, q2, by rw [q3, h5, e1], by rw [q4, h6, e2], ?_⟩
    intro r
    have s1 := hw.sem_patternCmds hpl h3 h4 h5 h6 h7 h8 q6.nodup q6.mem q9 q10 (xl := xz.xl ord) (zl := xz.zl ord)
      (fun u => corrected_nodup hord _ _ _ _) (fun u => corrected_nodup hord _ _ _ _)
      (fun u w => by rw [← h9]; exact corrected_mem hord _ _ _ _ _)
      (fun u w => by rw [← h10]; exact corrected_mem hord _ _ _ _ _) (later_of_ext hord h11 h13 q6) r
    rw [← q8] at s1
    exact ((hi.sem r).trans (OpPhaseEq.of_eq (fun ψ => (semCmds_cmds sp edges he r ψ).symm))).trans s1

/-! ### The measurement order -/

open FlowOrder in
theorem processPair_foldl (o : Finset ℕ) (l : List (ℕ × ℕ)) (st : PyDict ℕ (Finset ℕ) × PyDict ℕ ℤ)
    (h : ∀ e ∈ l, e.1 ∉ o → e.2 ∉ o → e.1 ∈ st.1.keys) :
    l.foldlM (processPair o) st = .ok ((l.filter fun e => decide (e.1 ∉ o ∧ e.2 ∉ o)).foldl addEdge st) ∧
    ∀ k ∈ st.1.keys, k ∈ ((l.filter fun e => decide (e.1 ∉ o ∧ e.2 ∉ o)).foldl addEdge st).1.keys := by
  induction l generalizing st with
  | nil => exact ⟨rfl, fun k hk => hk⟩
  | cons e l ih =>
    rw [List.foldlM_cons, List.filter_cons]
    by_cases ho : e.1 ∉ o ∧ e.2 ∉ o
    · have hk := h e (by simp) ho.1 ho.2
      rw [← PyDict.get?_isSome_iff, Option.isSome_iff_exists] at hk
      obtain ⟨ch, hch⟩ := hk
      have hstep : processPair o st e = .ok (addEdge st e) := by
        unfold processPair addEdge
        rw [if_neg (by simpa using ho)]
        simp only [hch, Option.getD_some]
        split <;> rfl
      have hkeys : ∀ k ∈ st.1.keys, k ∈ (addEdge st e).1.keys := by
        intro k hk
        unfold addEdge
        simp only []
        split
        · exact (PyDict.mem_keys_set _ _ _ _).2 (Or.inr hk)
        · exact hk
      obtain ⟨i1, i2⟩ := ih (addEdge st e) fun e' he' h1 h2 => hkeys _ (h e' (by simp [he']) h1 h2)
      rw [if_pos (by simpa using ho), List.foldl_cons, hstep]
      exact ⟨i1, fun k hk => i2 k (hkeys k hk)⟩
    · have hstep : processPair o st e = .ok st := by
        unfold processPair
        rw [if_pos (by by_contra hc; rw [not_or] at hc; exact ho hc)]
      rw [if_neg (by simpa using ho), hstep]
      exact ih st fun e' he' => h e' (by simp [he'])

theorem EdgeInv.topoInput {E : Finset (ℕ × ℕ)} {st : PyDict ℕ (Finset ℕ) × PyDict ℕ ℤ} (hinv : EdgeInv E st) {V : Finset ℕ}
    (hkeys : ∀ u ∈ V, u ∈ st.1.keys) (hE : ∀ e ∈ E, e.1 ∈ V ∧ e.2 ∈ V) :
    TopoInput (fun n => st.1.get? n) V st.2 (V \ st.2.keys.toFinset) ∧
      ∀ u v, dagEdge (fun n => st.1.get? n) V u v ↔ (u, v) ∈ E := by
  have hget : ∀ u ∈ V, ∃ ch, st.1.get? u = some ch := by
    intro u hu
    have := hkeys u hu
    rwa [← PyDict.get?_isSome_iff, Option.isSome_iff_exists] at this
  have hedge : ∀ u v, dagEdge (fun n => st.1.get? n) V u v ↔ (u, v) ∈ E := by
    intro u v
    unfold dagEdge
    constructor
    · rintro ⟨-, ch, hch, hv⟩
      simp only [] at hch
      rw [← hinv.dag u v, hch]; exact hv
    · intro h
      obtain ⟨ch, hch⟩ := hget u (hE _ h).1
      refine ⟨(hE _ h).1, ch, hch, ?_⟩
      have := (hinv.dag u v).2 h
      rwa [hch] at this
  have hcard : ∀ v, (dagParents (fun n => st.1.get? n) V v).card = (E.filter (·.2 = v)).card := by
    intro v
    classical
    symm
    apply Finset.card_bij (fun e _ => e.1)
    · rintro ⟨a, b⟩ he
      rw [Finset.mem_filter] at he
      obtain ⟨h1, rfl⟩ := he
      have h2 := (hedge a b).2 h1
      unfold dagParents
      exact Finset.mem_filter.2 ⟨h2.1, h2⟩
    · rintro ⟨a, b⟩ ha ⟨a', b'⟩ hb hab
      rw [Finset.mem_filter] at ha hb
      simp only at hab
      obtain ⟨-, rfl⟩ := ha
      obtain ⟨-, h2⟩ := hb
      rw [Prod.mk.injEq]; exact ⟨hab, h2.symm⟩
    · intro u hu
      unfold dagParents at hu
      have h2 := (Finset.mem_filter.1 hu).2
      exact ⟨(u, v), Finset.mem_filter.2 ⟨(hedge u v).1 h2, rfl⟩, rfl⟩
  have hk : ∀ v, v ∈ st.2.keys ↔ (E.filter (·.2 = v)).card ≠ 0 := by
    intro v
    rw [← PyDict.get?_isSome_iff, Option.isSome_iff_exists]
    constructor
    · rintro ⟨c, hc⟩
      obtain ⟨h1, h2⟩ := (hinv.indeg v c).1 hc
      intro h0; rw [h0] at h1; exact h2 (by simpa using h1)
    · intro h
      exact ⟨_, (hinv.indeg v _).2 ⟨rfl, by exact_mod_cast h⟩⟩
  refine ⟨⟨?_, hinv.nodup, ?_, ?_⟩, hedge⟩
  · intro u hu
    obtain ⟨ch, hch⟩ := hget u hu
    refine ⟨ch, hch, fun v hv => ?_⟩
    have : (u, v) ∈ E := by rw [← hinv.dag u v, hch]; exact hv
    exact (hE _ this).2
  · intro v c
    rw [hinv.indeg, ne_eq (dagParents _ _ _), ← Finset.card_eq_zero, hcard]
    constructor
    · rintro ⟨h1, h2⟩
      have h3 : (E.filter (·.2 = v)).card ≠ 0 := by
        intro h0; rw [h0] at h1; exact h2 (by simpa using h1)
      refine ⟨?_, h3, h1⟩
      obtain ⟨e, he⟩ := Finset.card_pos.1 (Nat.pos_of_ne_zero h3)
      rw [Finset.mem_filter] at he
      exact he.2 ▸ (hE e he.1).2
    · rintro ⟨-, h2, h3⟩
      exact ⟨h3, by rw [h3]; exact_mod_cast h2⟩
  · intro v
    rw [← Finset.card_eq_zero, hcard, Finset.mem_sdiff, List.mem_toFinset, hk, not_not]

/-- `w` must be measured after `u`: `u` is in a domain of the measurement of `w`. -/
def StdPattern.Depends (sp : StdPattern) (u w : ℕ) : Prop :=
  ∃ m ∈ sp.mList, m.node = w ∧ (u ∈ m.sDomain ∨ u ∈ m.tDomain)

open FlowOrder in
/-- **C33.** `partial_order_layers` never fails on the standard form of a runnable pattern: whatever the iteration order of
sets, it returns the output nodes (if any) followed by the generations, last one first, of the measured nodes for the
relation "is in a domain of the measurement of". -/
theorem C33_partial_order_layers (p : Pattern) (hp : p.OutputsOk) (hE : NoSelfLoop p.seq) (sp : StdPattern)
    (h : StdPattern.fromPattern p = .ok sp) (ord : SetOrd) (hord : ord.Valid) :
    ∃ gens, sp.partialOrderLayers ord =
        .ok (if p.outputs ≠ [] then p.outputs.toFinset :: gens.reverse else gens.reverse) ∧
      IsGenerations (measuredIn p.seq).toFinset sp.Depends gens := by
  have hw := fromPattern_wf hp hE h
  have hi := fromPattern_inv hE h
  obtain ⟨-, -, -, e2⟩ := fromPattern_ok h
  have hml : sp.measNodes = measuredIn p.seq := hi.ml
  set o := sp.outputs.toFinset with ho
  set V := (sp.inputs.toFinset ∪ (sp.nList.map Prod.fst).toFinset) \ o with hV
  have hVm : ∀ u, u ∈ V ↔ u ∈ sp.measNodes := by
    intro u
    rw [hV, ho, Finset.mem_sdiff, Finset.mem_union, List.mem_toFinset, List.mem_toFinset, List.mem_toFinset,
      ← List.mem_append]
    change u ∈ sp.nodeList ∧ _ ↔ _
    constructor
    · rintro ⟨h1, h2⟩; by_contra h3; exact h2 ((hw.out u).2 ⟨h1, h3⟩)
    · intro h; exact ⟨hw.m_sub u h, fun h2 => ((hw.out u).1 h2).2 h⟩
  have hVo : ∀ u ∈ V, u ∉ o := fun u hu => (Finset.mem_sdiff.1 hu).2
  set dag : PyDict ℕ (Finset ℕ) := (ord 14 0 V).map fun n => (n, ∅) with hdag
  have hdk : ∀ u, u ∈ dag.keys ↔ u ∈ V := by
    intro u
    rw [hdag]; unfold PyDict.keys
    rw [List.map_map]
    have : (Prod.fst ∘ fun n : ℕ => (n, (∅ : Finset ℕ))) = id := rfl
    rw [this, List.map_id, (hord _ _ _).2]
  have hmem : ∀ u v, (u, v) ∈ sp.domainPairs ord ↔ sp.XDom u v ∨ sp.ZDom u v := by
    intro u v
    unfold StdPattern.domainPairs StdPattern.XDom StdPattern.ZDom
    simp only [List.mem_append, List.mem_flatMap, List.mem_map, Prod.mk.injEq, (hord _ _ _).2, Finset.mem_union]
    constructor
    · rintro ((⟨m, hm, d, hd, rfl, rfl⟩ | ⟨⟨k, D⟩, hk, d, hd, rfl, rfl⟩) | ⟨⟨k, D⟩, hk, d, hd, rfl, rfl⟩)
      · rcases hd with hd | hd
        · exact Or.inl (Or.inl ⟨m, hm, rfl, hd⟩)
        · exact Or.inr (Or.inl ⟨m, hm, rfl, hd⟩)
      · exact Or.inr (Or.inr ⟨D, hk, hd⟩)
      · exact Or.inl (Or.inr ⟨D, hk, hd⟩)
    · rintro ((⟨m, hm, rfl, hd⟩ | ⟨D, hk, hd⟩) | (⟨m, hm, rfl, hd⟩ | ⟨D, hk, hd⟩))
      · exact Or.inl (Or.inl ⟨m, hm, u, Or.inl hd, rfl, rfl⟩)
      · exact Or.inr ⟨(v, D), hk, u, hd, rfl, rfl⟩
      · exact Or.inl (Or.inl ⟨m, hm, u, Or.inr hd, rfl, rfl⟩)
      · exact Or.inl (Or.inr ⟨(v, D), hk, u, hd, rfl, rfl⟩)
  have hsrc : ∀ e ∈ sp.domainPairs ord, e.1 ∈ V := fun e he =>
    (hVm _).2 (hw.earlier ((hmem e.1 e.2).1 he)).1
  obtain ⟨r1, r2⟩ := processPair_foldl o (sp.domainPairs ord) (dag, []) fun e he _ _ => (hdk _).2 (hsrc e he)
  set l := (sp.domainPairs ord).filter fun e => decide (e.1 ∉ o ∧ e.2 ∉ o) with hl
  set st := l.foldl addEdge (dag, ([] : PyDict ℕ ℤ)) with hst
  have hinv0 : EdgeInv ∅ (dag, ([] : PyDict ℕ ℤ)) := by
    refine ⟨?_, by simp, by simp [PyDict.keys]⟩
    intro u v
    simp only [Finset.notMem_empty, iff_false]
    cases hg : dag.get? u with
    | none => simp
    | some D =>
      have := PyDict.mem_of_get? hg
      rw [hdag] at this
      obtain ⟨n, -, hn⟩ := List.mem_map.1 this
      rw [← (Prod.mk.inj hn).2]; simp
  have hinv := edgeInv_foldl l hinv0
  rw [Finset.empty_union, ← hst] at hinv
  have hlm : ∀ u v, (u, v) ∈ l.toFinset ↔ sp.Depends u v := by
    intro u v
    rw [List.mem_toFinset, hl, List.mem_filter, hmem]
    constructor
    · rintro ⟨h1, h2⟩
      have hv : v ∉ o := by have := of_decide_eq_true h2; exact this.2
      have hvo : v ∉ sp.outputs := by simpa [ho] using hv
      rcases h1 with (⟨m, hm, h3, h4⟩ | ⟨D, hD, -⟩) | (⟨m, hm, h3, h4⟩ | ⟨D, hD, -⟩)
      · exact ⟨m, hm, h3, Or.inl h4⟩
      · exact absurd (hw.lx _ (List.mem_map.2 ⟨_, hD, rfl⟩)) hvo
      · exact ⟨m, hm, h3, Or.inr h4⟩
      · exact absurd (hw.lz _ (List.mem_map.2 ⟨_, hD, rfl⟩)) hvo
    · rintro ⟨m, hm, rfl, h4⟩
      have hX : sp.XDom u m.node ∨ sp.ZDom u m.node := by
        rcases h4 with h4 | h4
        · exact Or.inl (Or.inl ⟨m, hm, rfl, h4⟩)
        · exact Or.inr (Or.inl ⟨m, hm, rfl, h4⟩)
      refine ⟨hX, decide_eq_true ⟨hVo _ ((hVm _).2 (hw.earlier hX).1), hVo _ ((hVm _).2 (List.mem_map_of_mem hm))⟩⟩
  have hdepV : ∀ u v, sp.Depends u v → u ∈ V ∧ v ∈ V ∧ sp.measNodes.idxOf u < sp.measNodes.idxOf v := by
    rintro u v ⟨m, hm, rfl, h4⟩
    have hX : sp.XDom u m.node ∨ sp.ZDom u m.node := by
      rcases h4 with h4 | h4
      · exact Or.inl (Or.inl ⟨m, hm, rfl, h4⟩)
      · exact Or.inr (Or.inl ⟨m, hm, rfl, h4⟩)
    exact ⟨(hVm _).2 (hw.earlier hX).1, (hVm _).2 (List.mem_map_of_mem hm), (hw.earlier hX).2.1⟩
  obtain ⟨ht, hedge⟩ := hinv.topoInput (V := V) (fun u hu => r2 u ((hdk u).2 hu)) (by
    rintro ⟨u, v⟩ he
    have := hdepV u v ((hlm u v).1 he)
    exact ⟨this.1, this.2.1⟩)
  have hrel : dagEdge (fun n => st.1.get? n) V = sp.Depends := by
    funext u v; exact propext ((hedge u v).trans (hlm u v))
  obtain ⟨res, g1, g2, g3⟩ := C26_topological_generations _ _ _ _ ht (ord 15 0) (fun s => hord 15 0 s)
  rw [hrel] at g2 g3
  have hne : res ≠ none := fun hr =>
    not_hasCycle_of_rank _ (fun u v huv => (hdepV u v huv).2.2) (g3.1 hr)
  obtain ⟨gens, rfl⟩ := Option.ne_none_iff_exists'.1 hne
  refine ⟨gens, ?_, ?_⟩
  · have hoe : o ≠ ∅ ↔ p.outputs ≠ [] := by rw [ho, e2]; simp
    unfold StdPattern.partialOrderLayers
    simp only [← ho, ← hV, ← hdag, r1, bind, Except.bind, g1, pure, Except.pure]
    by_cases hc : p.outputs ≠ []
    · rw [if_pos (hoe.2 hc), if_pos hc, ho, e2]
    · rw [if_neg fun h => hc (hoe.1 h), if_neg hc]
  · have := g2 gens rfl
    have hVeq : V = (measuredIn p.seq).toFinset := by
      ext u; rw [hVm, List.mem_toFinset, hml]
    rwa [hVeq] at this

/-- A pattern that prepares another state than `|+⟩` is refused with a `ValueError`. -/
theorem C33_not_plus_raises (p : Pattern) (sp : StdPattern) (h : StdPattern.fromPattern p = .ok sp) (n : ℕ) (st : PlanarState)
    (hn : Command.N n st ∈ p.seq) (hst : st ≠ PlanarState.plus) (edges : List (ℕ × ℕ)) (ord : SetOrd) :
    sp.toOpenGraph edges = .error .valueError ∧ sp.toXZCorrections edges ord = .error .valueError := by
  obtain ⟨-, hrun, -, -⟩ := fromPattern_ok h
  obtain ⟨f1, -⟩ := StdBody.run_fields hrun
  have h1 : sp.toOpenGraph edges = .error .valueError := by
    unfold StdPattern.toOpenGraph
    rw [if_pos]
    refine ⟨(n, st), ?_, hst⟩
    rw [f1, List.mem_append]
    exact Or.inr (List.mem_filterMap.2 ⟨_, hn, rfl⟩)
  refine ⟨h1, ?_⟩
  unfold StdPattern.toXZCorrections
  simp only [h1, bind, Except.bind]

/-! Non-vacuity: the pattern of two J gates on one qubit. -/

theorem stdExample_plus : ∀ n st, Command.N n st ∈ stdExample.seq → st = PlanarState.plus := by
  intro n st h
  have h' : Command.N n st ∈ [Command.N 1 .plus, .E 0 1, .M 0 (.bloch ⟨1/4, .XY⟩) ∅ ∅, .X 1 {0},
    .N 2 .plus, .E 1 2, .M 1 (.bloch ⟨1/8, .XY⟩) ∅ ∅, .X 2 {1}] := h
  simp at h'
  rcases h' with ⟨-, h⟩ | ⟨-, h⟩ <;> exact h

example : ∃ sp xz q, StdPattern.fromPattern stdExample = .ok sp ∧ sp.toXZCorrections [(0, 1), (1, 2)] exOrd = .ok xz ∧
    Captures stdExample sp xz ∧ xz.og.Adj 1 2 ∧ (∃ s, xz.x.get? 0 = some s ∧ 1 ∈ s) ∧ (∃ s, xz.z.get? 0 = some s ∧ 2 ∈ s) ∧
    xz.toPattern exOrd none = .ok q ∧ (∀ r, OpPhaseEq (semCmds r stdExample.seq) (semCmds r q.seq)) ∧
    sp.partialOrderLayers exOrd = .ok [{2}, {1}, {0}] := by
  obtain ⟨xz, h1, -, h3, -, -, -, h7⟩ := C33_to_xzcorrections stdExample stdExample_outputsOk stdExample_noSelfLoop
    stdExample_plus stdExampleSP stdExampleSP_eq [(0, 1), (1, 2)] ⟨by decide, by decide⟩ exOrd exOrd_valid
  obtain ⟨q, q1, -, -, -, q5⟩ := h7 none (by simp)
  refine ⟨stdExampleSP, xz, q, stdExampleSP_eq, h1, h3, ?_, ?_, ?_, q1, q5, rfl⟩
  · rw [h3.adj]; decide
  · rw [h3.x]; exact Or.inl ⟨⟨1, .bloch ⟨1/8, .XY⟩, ∅ ∆ {0}, ∅ ∆ ∅⟩, List.mem_cons_of_mem _ (List.mem_singleton.2 rfl), rfl, by decide⟩
  · rw [h3.z]; exact Or.inr ⟨{0}, List.mem_singleton.2 rfl, by decide⟩

end Graphix
