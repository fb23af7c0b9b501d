import Verif.Proofs.FlowCheck2

/-!
# C29: `check_well_formed` decides the definition of the flow
-/

namespace Graphix

theorem guardT_ok_iff {ε β : Type} (c : Prop) [Decidable c] (e : ε) (g : Unit → Except ε β) (b : β) :
    (if c then ((throw e : Except ε Unit) >>= g) else g ()) = .ok b ↔ ¬ c ∧ g () = .ok b := by
  by_cases h : c <;> simp [h, throw, throwThe, MonadExceptOf.throw, bind, Except.bind]

theorem inter_eq_empty_iff {s past : Finset ℕ} {u : ℕ} : (s \ {u}) ∩ past = ∅ ↔ ∀ v ∈ s, v ≠ u → v ∉ past := by
  rw [Finset.eq_empty_iff_forall_notMem]
  simp only [Finset.mem_inter, Finset.mem_sdiff, Finset.mem_singleton, not_and, and_imp]

namespace Flow

theorem checkNodePauli_ok (f : Flow) (ord : SetOrd) (hord : ord.Valid) {past pastY s : Finset ℕ} {u : ℕ}
    (hs : f.corr.get? u = some s) (hsub : s ⊆ f.og.nodes) :
    f.checkNodePauli ord past pastY u = .ok () ↔ ∃ meas, f.og.HasLabel u meas ∧
      (∀ v ∈ s, v ≠ u → v ∈ past → f.og.HasLabel v (.axis .X) ∨ f.og.HasLabel v (.axis .Y)) ∧
      (∀ v, f.og.InOdd s v → v ≠ u → v ∈ past → f.og.HasLabel v (.axis .Y) ∨ f.og.HasLabel v (.axis .Z)) ∧
      (∀ v ∈ pastY, v ≠ u → (v ∈ s ↔ f.og.InOdd s v)) ∧
      labelOk meas (decide (u ∈ s)) (decide (u ∈ f.og.oddSet s)) = true := by
  unfold checkNodePauli
  simp only [(f.correctionSet_ok u s).2 hs, f.og.oddNeighbors_eq hsub, bind_ok_iff, Except.ok.injEq, exists_eq_left',
    OpenGraph.label_ok, guardT_ok_iff, guard_ok_iff]
  refine exists_congr fun meas => and_congr_right fun _ => ?_
  have ex : ∀ P : Unit → Prop, (∃ a, P a) ↔ P () := fun P => ⟨fun ⟨⟨⟩, h⟩ => h, fun h => ⟨(), h⟩⟩
  rw [ex, ex, checkLabels_ok, checkLabels_ok]
  simp only [(hord _ _ _).2, Finset.mem_inter, Finset.mem_sdiff, Finset.mem_singleton, and_imp, OpenGraph.mem_oddSet,
    ne_eq, not_not]
  refine and_congr ?_ (and_congr ?_ (and_congr ?_ Iff.rfl))
  · refine forall_congr' fun v => forall_congr' fun _ => forall_congr' fun _ => forall_congr' fun _ => ?_
    constructor
    · rintro ⟨lab, h1, h2⟩
      simp only [Bool.or_eq_true, decide_eq_true_eq] at h2
      rcases h2 with rfl | rfl
      · exact Or.inl h1
      · exact Or.inr h1
    · rintro (h | h)
      · exact ⟨_, h, by simp⟩
      · exact ⟨_, h, by simp⟩
  · refine forall_congr' fun v => forall_congr' fun _ => forall_congr' fun _ => forall_congr' fun _ => ?_
    constructor
    · rintro ⟨lab, h1, h2⟩
      simp only [Bool.or_eq_true, decide_eq_true_eq] at h2
      rcases h2 with rfl | rfl
      · exact Or.inl h1
      · exact Or.inr h1
    · rintro (h | h)
      · exact ⟨_, h, by simp⟩
      · exact ⟨_, h, by simp⟩
  · rw [Finset.eq_empty_iff_forall_notMem]
    refine forall_congr' fun v => ?_
    simp only [Finset.mem_inter, Finset.mem_sdiff, Finset.mem_singleton, Finset.mem_union, OpenGraph.mem_oddSet]
    tauto

theorem checkNodeG_ok (f : Flow) {past s : Finset ℕ} {u : ℕ}
    (hs : f.corr.get? u = some s) (hsub : s ⊆ f.og.nodes) :
    f.checkNodeG past u = .ok () ↔
      (∀ v ∈ s, v ≠ u → v ∉ past) ∧ (∀ v, f.og.InOdd s v → v ≠ u → v ∉ past) ∧ ∃ p, f.og.HasLabel u (.plane p) ∧
      labelOk (.plane p) (decide (u ∈ s)) (decide (u ∈ f.og.oddSet s)) = true := by
  unfold checkNodeG
  simp only [(f.correctionSet_ok u s).2 hs, f.og.oddNeighbors_eq hsub, bind_ok_iff, Except.ok.injEq, exists_eq_left',
    OpenGraph.plane_ok, guardT_ok_iff, guard_ok_iff]
  simp only [ne_eq, not_not, inter_eq_empty_iff, OpenGraph.mem_oddSet]

theorem mem_biUnion_nbrs (og : OpenGraph) (s : Finset ℕ) (v : ℕ) : v ∈ s.biUnion og.nbrs ↔ ∃ w ∈ s, og.Adj v w := by
  simp only [Finset.mem_biUnion, OpenGraph.mem_nbrs]
  exact exists_congr fun w => and_congr_right fun _ => OpenGraph.adj_comm

theorem checkNodeC_ok (f : Flow) {past s : Finset ℕ} {u : ℕ}
    (hs : f.corr.get? u = some s) (hsub : s ⊆ f.og.nodes) :
    f.checkNodeC past u = .ok () ↔
      s.card = 1 ∧ f.og.HasLabel u (.plane .XY) ∧ (∃ w ∈ s, f.og.Adj u w) ∧ (∀ v ∈ s, v ∉ past) ∧
      ∀ v, (∃ w ∈ s, f.og.Adj v w) → v ≠ u → v ∉ past := by
  have hn : f.og.neighbors s = .ok (s.biUnion f.og.nbrs) := by unfold OpenGraph.neighbors; rw [if_pos hsub]
  unfold checkNodeC
  simp only [(f.correctionSet_ok u s).2 hs, hn, bind_ok_iff, Except.ok.injEq, exists_eq_left',
    OpenGraph.plane_ok, guardT_ok_iff, guard_ok_iff]
  simp only [ne_eq, not_not, inter_eq_empty_iff, mem_biUnion_nbrs]
  rw [Finset.eq_empty_iff_forall_notMem]
  simp only [Finset.mem_inter, not_and]
  constructor
  · rintro ⟨h1, p, h2, rfl, h3⟩; exact ⟨h1, h2, h3⟩
  · rintro ⟨h1, h2, h3⟩; exact ⟨h1, _, h2, rfl, h3⟩

theorem checkAll_ok {f : Flow} (h : f.og.postInit = .ok ()) (hk : f.corr.keys.Nodup) (P : Finset ℕ → ℕ → Prop) :
    (f.checkGeneral = .ok () ∧ LoopOk f.og.measurements.keys.toFinset P (f.og.measuredLayers f.layers).reverse ∅ ∧
      f.og.outputs.toFinset ∪ unionL (f.og.measuredLayers f.layers) = f.og.nodes) ↔
    (FlowBase f ∧ ∀ u s, f.corr.get? u = some s → P (notAfter f.og f.layers u) u) := by
  rw [checkGeneral_ok f hk]
  have := layers_iff h f.layers P
  constructor
  · rintro ⟨⟨h1, h2, h3⟩, h4⟩
    obtain ⟨h5, h6⟩ := this.1 ⟨h3, h4⟩
    refine ⟨⟨h1, h2, h5⟩, fun u s hs => ?_⟩
    have := (h1 u).1 ⟨s, hs⟩
    exact h6 u this.1 this.2
  · rintro ⟨⟨h1, h2, h5⟩, h6⟩
    obtain ⟨h3, h4⟩ := this.2 ⟨h5, fun u hu hu' => by
      obtain ⟨s, hs⟩ := (h1 u).2 ⟨hu, hu'⟩
      exact h6 u s hs⟩
    exact ⟨⟨h1, h2, h3⟩, h4⟩

theorem checkG_iff {f : Flow} (h : f.og.postInit = .ok ()) (hk : f.corr.keys.Nodup) (ord : SetOrd) (hord : ord.Valid) :
    f.checkG ord = .ok () ↔ FlowBase f ∧ ∀ u s, f.corr.get? u = some s → f.checkNodeG (notAfter f.og f.layers u) u = .ok () := by
  rw [← checkAll_ok h hk (fun past u => f.checkNodeG past u = .ok ())]
  unfold checkG
  simp only [bind_ok_iff, checkLayersG_ok f ord hord, guard_ok_iff, unionL_reverse, Finset.empty_union]
  simp only [ne_eq, not_not]
  constructor
  · rintro ⟨⟨⟩, h1, p, ⟨rfl, h2⟩, h3⟩; exact ⟨h1, h2, h3⟩
  · rintro ⟨h1, h2, h3⟩; exact ⟨(), h1, _, ⟨rfl, h2⟩, h3⟩

theorem checkC_iff {f : Flow} (h : f.og.postInit = .ok ()) (hk : f.corr.keys.Nodup) (ord : SetOrd) (hord : ord.Valid) :
    f.checkC ord = .ok () ↔ FlowBase f ∧ ∀ u s, f.corr.get? u = some s → f.checkNodeC (notAfter f.og f.layers u) u = .ok () := by
  rw [← checkAll_ok h hk (fun past u => f.checkNodeC past u = .ok ())]
  unfold checkC
  simp only [bind_ok_iff, checkLayersC_ok f ord hord, guard_ok_iff, unionL_reverse, Finset.empty_union]
  simp only [ne_eq, not_not]
  constructor
  · rintro ⟨⟨⟩, h1, p, ⟨rfl, h2⟩, h3⟩; exact ⟨h1, h2, h3⟩
  · rintro ⟨h1, h2, h3⟩; exact ⟨(), h1, _, ⟨rfl, h2⟩, h3⟩

theorem checkPauli_iff {f : Flow} (h : f.og.postInit = .ok ()) (hk : f.corr.keys.Nodup) (ord : SetOrd) (hord : ord.Valid) :
    f.checkPauli ord = .ok () ↔ FlowBase f ∧ ∀ u s, f.corr.get? u = some s →
      f.checkNodePauli ord (notAfter f.og f.layers u) (f.og.yOf (notAfter f.og f.layers u)) u = .ok () := by
  rw [← checkAll_ok h hk (fun past u => f.checkNodePauli ord past (f.og.yOf past) u = .ok ())]
  have hy : (∅ : Finset ℕ) = f.og.yOf ∅ := by simp [OpenGraph.yOf]
  unfold checkPauli
  conv_lhs => rw [show f.checkLayersPauli ord (f.og.measuredLayers f.layers).reverse ∅ ∅ =
    f.checkLayersPauli ord (f.og.measuredLayers f.layers).reverse ∅ (f.og.yOf ∅) by rw [← hy]]
  simp only [bind_ok_iff, checkLayersPauli_ok f ord hord, guard_ok_iff, unionL_reverse, Finset.empty_union]
  simp only [ne_eq, not_not]
  constructor
  · rintro ⟨⟨⟩, h1, p, ⟨rfl, h2⟩, h3⟩; exact ⟨h1, h2, h3⟩
  · rintro ⟨h1, h2, h3⟩; exact ⟨(), h1, _, ⟨rfl, h2⟩, h3⟩

end Flow

theorem LayersOk.outputs_after {og : OpenGraph} {layers : List (Finset ℕ)} (hl : LayersOk og layers) {u v : ℕ}
    (hu : u ∈ og.nodes) (huo : u ∉ og.outputs) (hv : v ∈ og.outputs) : Before layers u v := by
  have hne : og.outputs ≠ [] := by rintro h; simp [h] at hv
  have h0 := hl.outputs hne
  obtain ⟨L, hL, huL⟩ := (hl.cover u).1 hu
  obtain ⟨i, hi⟩ := List.mem_iff_getElem?.1 hL
  rw [List.head?_eq_getElem?] at h0
  refine ⟨i, 0, L, _, hi, h0, ?_, huL, by simpa using hv⟩
  rcases Nat.eq_zero_or_pos i with rfl | h
  · rw [h0] at hi; cases hi; simp at huL; exact absurd huL huo
  · exact h

theorem OpenGraph.InOdd.mem_nodes {og : OpenGraph} (he : ∀ u v, (u, v) ∈ og.edges → u ∈ og.nodes ∧ v ∈ og.nodes)
    {s : Finset ℕ} {v : ℕ} (h : og.InOdd s v) : v ∈ og.nodes := by
  unfold InOdd at h
  obtain ⟨w, hw⟩ : (s.filter (og.Adj v)).Nonempty := by
    rw [Finset.nonempty_iff_ne_empty]; intro h0; rw [h0] at h; simp at h
  rcases (Finset.mem_filter.1 hw).2 with h | h
  · exact (he _ _ h).1
  · exact (he _ _ h).2

theorem OpenGraph.Adj.mem_nodes {og : OpenGraph} (he : ∀ u v, (u, v) ∈ og.edges → u ∈ og.nodes ∧ v ∈ og.nodes)
    {u v : ℕ} (h : og.Adj u v) : u ∈ og.nodes := by
  rcases h with h | h
  · exact (he _ _ h).1
  · exact (he _ _ h).2

/-- C29 (gflow): `check_well_formed` accepts exactly the generalised flows, whatever the iteration order of the sets. -/
theorem C29_gflow (f : Flow) (hv : f.og.Valid) (hk : f.corr.keys.Nodup) (ord : SetOrd) (hord : ord.Valid) :
    f.checkG ord = .ok () ↔ IsGFlow f := by
  have he := hv.edge_mem
  rw [Flow.checkG_iff hv.post hk ord hord]
  constructor
  · rintro ⟨hb, h⟩
    have key : ∀ u s, f.corr.get? u = some s → _ := fun u s hs =>
      (f.checkNodeG_ok (past := notAfter f.og f.layers u) hs (fun v hvs => (hb.image u s v hs hvs).1)).1 (h u s hs)
    have hlab : ∀ u s p, f.corr.get? u = some s → f.og.HasLabel u (.plane p) →
        Flow.labelOk (.plane p) (decide (u ∈ s)) (decide (u ∈ f.og.oddSet s)) = true := by
      intro u s p hs hp
      obtain ⟨p', hp', h'⟩ := (key u s hs).2.2
      rw [hp.unique hp']; exact h'
    refine { toFlowBase := hb, planes := ?_, g1 := ?_, g2 := ?_, g3 := ?_, g4 := ?_, g5 := ?_ }
    · intro u hu huo
      obtain ⟨s, hs⟩ := (hb.domain u).2 ⟨hu, huo⟩
      obtain ⟨p, hp, -⟩ := (key u s hs).2.2
      exact ⟨p, hp⟩
    · intro u s hs v hvs hvu
      have := (key u s hs).1 v hvs hvu
      rw [mem_notAfter] at this
      by_contra hb'; exact this ⟨(hb.image u s v hs hvs).1, hb'⟩
    · intro u s hs v hvn hodd hvu
      have := (key u s hs).2.1 v hodd hvu
      rw [mem_notAfter] at this
      by_contra hb'; exact this ⟨hvn, hb'⟩
    · intro u s hs hp
      simpa [Flow.labelOk, OpenGraph.mem_oddSet] using hlab u s _ hs hp
    · intro u s hs hp
      simpa [Flow.labelOk, OpenGraph.mem_oddSet] using hlab u s _ hs hp
    · intro u s hs hp
      simpa [Flow.labelOk, OpenGraph.mem_oddSet] using hlab u s _ hs hp
  · intro hg
    refine ⟨hg.toFlowBase, fun u s hs => ?_⟩
    rw [f.checkNodeG_ok hs (fun v hvs => (hg.image u s v hs hvs).1)]
    refine ⟨fun v hvs hvu hm => (mem_notAfter.1 hm).2 (hg.g1 u s hs v hvs hvu),
      fun v hodd hvu hm => (mem_notAfter.1 hm).2 (hg.g2 u s hs v (hodd.mem_nodes he) hodd hvu), ?_⟩
    have hu := (hg.domain u).1 ⟨s, hs⟩
    obtain ⟨p, hp⟩ := hg.planes u hu.1 hu.2
    refine ⟨p, hp, ?_⟩
    cases p
    · simpa [Flow.labelOk, OpenGraph.mem_oddSet] using hg.g3 u s hs hp
    · simpa [Flow.labelOk, OpenGraph.mem_oddSet] using hg.g5 u s hs hp
    · simpa [Flow.labelOk, OpenGraph.mem_oddSet] using hg.g4 u s hs hp

/-- C29 (Pauli flow). -/
theorem C29_pauliflow (f : Flow) (hv : f.og.Valid) (hk : f.corr.keys.Nodup) (ord : SetOrd) (hord : ord.Valid) :
    f.checkPauli ord = .ok () ↔ IsPauliFlow f := by
  have he := hv.edge_mem
  rw [Flow.checkPauli_iff hv.post hk ord hord]
  constructor
  · rintro ⟨hb, h⟩
    have key : ∀ u s, f.corr.get? u = some s → _ := fun u s hs =>
      (f.checkNodePauli_ok ord hord (past := notAfter f.og f.layers u) (pastY := f.og.yOf (notAfter f.og f.layers u)) hs
        (fun v hvs => (hb.image u s v hs hvs).1)).1 (h u s hs)
    have hlab : ∀ u s l, f.corr.get? u = some s → f.og.HasLabel u l →
        Flow.labelOk l (decide (u ∈ s)) (decide (u ∈ f.og.oddSet s)) = true := by
      intro u s p hs hp
      obtain ⟨p', hp', -, -, -, h'⟩ := key u s hs
      rw [hp.unique hp']; exact h'
    refine { toFlowBase := hb, p1 := ?_, p2 := ?_, p3 := ?_, p4 := ?_, p5 := ?_, p6 := ?_, p7 := ?_, p8 := ?_, p9 := ?_ }
    · intro u s hs v hvs hvu hX hY
      obtain ⟨-, -, h1, -⟩ := key u s hs
      by_contra hb'
      rcases h1 v hvs hvu (mem_notAfter.2 ⟨(hb.image u s v hs hvs).1, hb'⟩) with h | h
      · exact hX h
      · exact hY h
    · intro u s hs v hvn hodd hvu hY hZ
      obtain ⟨-, -, -, h1, -⟩ := key u s hs
      by_contra hb'
      rcases h1 v hodd hvu (mem_notAfter.2 ⟨hvn, hb'⟩) with h | h
      · exact hY h
      · exact hZ h
    · intro u s hs v hvu hY hnb
      obtain ⟨-, -, -, -, h1, -⟩ := key u s hs
      refine h1 v ?_ hvu
      rw [OpenGraph.mem_yOf, mem_notAfter]
      exact ⟨⟨((OpenGraph.exists_label hv.post v).1 ⟨_, hY⟩).1, hnb⟩, hY⟩
    · intro u s hs hp
      simpa [Flow.labelOk, OpenGraph.mem_oddSet] using hlab u s _ hs hp
    · intro u s hs hp
      simpa [Flow.labelOk, OpenGraph.mem_oddSet] using hlab u s _ hs hp
    · intro u s hs hp
      simpa [Flow.labelOk, OpenGraph.mem_oddSet] using hlab u s _ hs hp
    · intro u s hs hp
      simpa [Flow.labelOk, OpenGraph.mem_oddSet] using hlab u s _ hs hp
    · intro u s hs hp
      simpa [Flow.labelOk, OpenGraph.mem_oddSet] using hlab u s _ hs hp
    · intro u s hs hp
      have := hlab u s _ hs hp
      simp only [Flow.labelOk, OpenGraph.mem_oddSet, bne_iff_ne, ne_eq, decide_eq_decide] at this
      tauto
  · intro hg
    refine ⟨hg.toFlowBase, fun u s hs => ?_⟩
    have hu := (hg.domain u).1 ⟨s, hs⟩
    rw [f.checkNodePauli_ok ord hord hs (fun v hvs => (hg.image u s v hs hvs).1)]
    obtain ⟨l, hl⟩ := (OpenGraph.exists_label hv.post u).2 hu
    refine ⟨l, hl, ?_, ?_, ?_, ?_⟩
    · intro v hvs hvu hm
      by_contra hno
      push Not at hno
      exact (mem_notAfter.1 hm).2 (hg.p1 u s hs v hvs hvu hno.1 hno.2)
    · intro v hodd hvu hm
      by_contra hno
      push Not at hno
      exact (mem_notAfter.1 hm).2 (hg.p2 u s hs v (mem_notAfter.1 hm).1 hodd hvu hno.1 hno.2)
    · intro v hvy hvu
      rw [OpenGraph.mem_yOf, mem_notAfter] at hvy
      exact hg.p3 u s hs v hvu hvy.2 hvy.1.2
    · cases l with
      | plane p =>
        cases p
        · simpa [Flow.labelOk, OpenGraph.mem_oddSet] using hg.p4 u s hs hl
        · simpa [Flow.labelOk, OpenGraph.mem_oddSet] using hg.p6 u s hs hl
        · simpa [Flow.labelOk, OpenGraph.mem_oddSet] using hg.p5 u s hs hl
      | axis a =>
        cases a
        · simpa [Flow.labelOk, OpenGraph.mem_oddSet] using hg.p7 u s hs hl
        · have := hg.p9 u s hs hl
          simp only [Flow.labelOk, OpenGraph.mem_oddSet, bne_iff_ne, ne_eq, decide_eq_decide]
          tauto
        · simpa [Flow.labelOk, OpenGraph.mem_oddSet] using hg.p8 u s hs hl

/-- C29 (causal flow). -/
theorem C29_causalflow (f : Flow) (hv : f.og.Valid) (hk : f.corr.keys.Nodup) (ord : SetOrd) (hord : ord.Valid) :
    f.checkC ord = .ok () ↔ IsCausalFlow f := by
  have he := hv.edge_mem
  rw [Flow.checkC_iff hv.post hk ord hord]
  constructor
  · rintro ⟨hb, h⟩
    have key : ∀ u s, f.corr.get? u = some s → _ := fun u s hs =>
      (f.checkNodeC_ok (past := notAfter f.og f.layers u) hs (fun v hvs => (hb.image u s v hs hvs).1)).1 (h u s hs)
    refine { toFlowBase := hb, xy := ?_, single := ?_ }
    · intro u hu huo
      obtain ⟨s, hs⟩ := (hb.domain u).2 ⟨hu, huo⟩
      exact (key u s hs).2.1
    · intro u s hs
      obtain ⟨h1, -, h2, h3, h4⟩ := key u s hs
      obtain ⟨w, rfl⟩ := Finset.card_eq_one.1 h1
      refine ⟨w, rfl, ?_, ?_, ?_⟩
      · simpa using h2
      · by_contra hb'
        exact h3 w (by simp) (mem_notAfter.2 ⟨(hb.image u _ w hs (by simp)).1, hb'⟩)
      · intro v hvw hvu hvn
        by_contra hb'
        exact h4 v ⟨w, by simp, hvw⟩ hvu (mem_notAfter.2 ⟨hvn, hb'⟩)
  · intro hg
    refine ⟨hg.toFlowBase, fun u s hs => ?_⟩
    have hu := (hg.domain u).1 ⟨s, hs⟩
    rw [f.checkNodeC_ok hs (fun v hvs => (hg.image u s v hs hvs).1)]
    obtain ⟨w, rfl, h1, h2, h3⟩ := hg.single u s hs
    refine ⟨by simp, hg.xy u hu.1 hu.2, ⟨w, by simp, h1⟩, ?_, ?_⟩
    · intro v hvs hm
      rw [Finset.mem_singleton] at hvs; subst hvs
      exact (mem_notAfter.1 hm).2 h2
    · rintro v ⟨w', hw', hadj⟩ hvu hm
      rw [Finset.mem_singleton] at hw'; subst hw'
      exact (mem_notAfter.1 hm).2 (h3 v hadj hvu (hadj.mem_nodes he))

namespace XZCorrections

theorem checkNode_ok (xz : XZCorrections) (past : Finset ℕ) (n : ℕ) : xz.checkNode past n = .ok () ↔
    (∀ s, xz.x.get? n = some s → ∀ v ∈ s, v ∉ past) ∧ (∀ s, xz.z.get? n = some s → ∀ v ∈ s, v ∉ past) := by
  have key : ∀ o : Option (Finset ℕ), (o.getD ∅ ∩ past ≠ ∅) ↔ ¬ ∀ s, o = some s → ∀ v ∈ s, v ∉ past := by
    intro o
    cases o with
    | none => simp
    | some s =>
      rw [not_iff_comm, not_not]
      simp only [Option.getD_some, Option.some.injEq, forall_eq', Finset.eq_empty_iff_forall_notMem, Finset.mem_inter,
        not_and]
  unfold checkNode
  by_cases h1 : ∀ s, xz.x.get? n = some s → ∀ v ∈ s, v ∉ past
  · by_cases h2 : ∀ s, xz.z.get? n = some s → ∀ v ∈ s, v ∉ past
    · rw [if_neg (by rw [key]; exact not_not.2 h1), if_neg (by rw [key]; exact not_not.2 h2)]
      exact ⟨fun _ => ⟨h1, h2⟩, fun _ => rfl⟩
    · rw [if_neg (by rw [key]; exact not_not.2 h1), if_pos (by rw [key]; exact h2)]
      exact ⟨fun h => by simp at h, fun h => absurd h.2 h2⟩
  · rw [if_pos (by rw [key]; exact h1)]
    exact ⟨fun h => by simp at h, fun h => absurd h.1 h1⟩

theorem checkNodes_ok (xz : XZCorrections) (past : Finset ℕ) (l : List ℕ) :
    xz.checkNodes past l = .ok () ↔ ∀ n ∈ l, xz.checkNode past n = .ok () := by
  induction l with
  | nil => simp [checkNodes]
  | cons n l ih => unfold checkNodes; rw [bindU_ok_iff, List.forall_mem_cons, ih]

theorem checkLayers_ok (xz : XZCorrections) (ord : SetOrd) (hord : ord.Valid) (ls : List (Finset ℕ)) (past p' : Finset ℕ) :
    xz.checkLayers ord ls past = .ok p' ↔ p' = past ∪ unionL ls ∧
      LoopOk xz.og.measurements.keys.toFinset (fun past n => xz.checkNode past n = .ok ()) ls past := by
  induction ls generalizing past with
  | nil => simp [checkLayers, LoopOk, eq_comm]
  | cons L ls ih =>
    unfold checkLayers LoopOk
    by_cases hc : ¬ L ⊆ xz.og.measurements.keys.toFinset ∨ L = ∅ ∨ L ∩ past ≠ ∅
    · rw [if_pos hc]
      have := mt (Flow.cond_iff L _ past).2 (not_not.2 hc)
      constructor
      · intro h; simp at h
      · rintro ⟨-, h1, h2, h3, -⟩; exact absurd ⟨h1, h2, h3⟩ this
    · rw [if_neg hc, bindU_ok_iff]
      have := (Flow.cond_iff L _ past).1 hc
      simp only [checkNodes_ok, ih, unionL_cons, Finset.union_assoc, (hord _ _ _).2]
      constructor
      · rintro ⟨h1, h2, h3⟩; exact ⟨h2, this.1, this.2.1, this.2.2, h1, h3⟩
      · rintro ⟨h2, -, -, -, h1, h3⟩; exact ⟨h1, h2, h3⟩

end XZCorrections

/-- C29 (XZ-corrections): `XZCorrections.check_well_formed` accepts exactly the corrections that respect the partial
order. -/
theorem C29_xzcorrections (xz : XZCorrections) (hv : xz.og.Valid) (ord : SetOrd) (hord : ord.Valid) :
    xz.checkWellFormed ord = .ok () ↔ CorrectionsOk xz := by
  have hL := layers_iff hv.post xz.layers (fun past n => xz.checkNode past n = .ok ())
  obtain ⟨hm, hi, ho, -, -, -⟩ := xz.og.postInit_ok hv.post
  have hdom : (xz.x.keys.toFinset ∪ xz.z.keys.toFinset ⊆ xz.og.measurements.keys.toFinset) ↔
      ∀ u, (∃ s, xz.x.get? u = some s) ∨ (∃ s, xz.z.get? u = some s) → u ∈ xz.og.nodes ∧ u ∉ xz.og.outputs := by
    rw [hm]
    refine forall_congr' fun u => ?_
    simp only [Finset.mem_union, List.mem_toFinset, ← PyDict.get?_isSome_iff, Option.isSome_iff_exists,
      Finset.mem_sdiff]
  have hcorr : (LayersOk xz.og xz.layers ∧ ∀ u ∈ xz.og.nodes, u ∉ xz.og.outputs →
      xz.checkNode (notAfter xz.og xz.layers u) u = .ok ()) ∧
      (∀ u, (∃ s, xz.x.get? u = some s) ∨ (∃ s, xz.z.get? u = some s) → u ∈ xz.og.nodes ∧ u ∉ xz.og.outputs) ↔
      CorrectionsOk xz := by
    constructor
    · rintro ⟨⟨h1, h2⟩, h3⟩
      refine ⟨h3, h1, ?_, ?_⟩
      · intro u s v hs hvs hvn
        have hu := h3 u (Or.inl ⟨s, hs⟩)
        have := ((xz.checkNode_ok _ u).1 (h2 u hu.1 hu.2)).1 s hs v hvs
        by_contra hb; exact this (mem_notAfter.2 ⟨hvn, hb⟩)
      · intro u s v hs hvs hvn
        have hu := h3 u (Or.inr ⟨s, hs⟩)
        have := ((xz.checkNode_ok _ u).1 (h2 u hu.1 hu.2)).2 s hs v hvs
        by_contra hb; exact this (mem_notAfter.2 ⟨hvn, hb⟩)
    · intro h
      refine ⟨⟨h.layers, fun u _ _ => ?_⟩, h.domain⟩
      rw [xz.checkNode_ok]
      exact ⟨fun s hs v hvs hmem => (mem_notAfter.1 hmem).2 (h.x_later u s v hs hvs (mem_notAfter.1 hmem).1),
        fun s hs v hvs hmem => (mem_notAfter.1 hmem).2 (h.z_later u s v hs hvs (mem_notAfter.1 hmem).1)⟩
  rw [← hcorr, ← hL, ← hdom]
  unfold XZCorrections.checkWellFormed LayerHeadOk
  cases hly : xz.layers with
  | nil =>
    simp only []
    have hml : xz.og.measuredLayers [] = [] := by unfold OpenGraph.measuredLayers; split <;> rfl
    rw [hml]
    constructor
    · intro h
      have h' : xz.og.nodes = ∅ ∧ xz.x = [] ∧ xz.z = [] := by
        by_contra hne; rw [if_neg hne] at h; simp at h
      rw [h'.2.1, h'.2.2]
      rw [h'.1, Finset.subset_empty] at ho
      exact ⟨⟨⟨fun _ => h'.1, by simp⟩, by simp [LoopOk], by rw [ho, h'.1]; simp⟩, by simp [PyDict.keys]⟩
    · rintro ⟨⟨⟨h1, -⟩, -, -⟩, h2⟩
      have hn := h1 trivial
      rw [hm, hn] at h2
      have hx : xz.x = [] := by
        cases hx : xz.x with
        | nil => rfl
        | cons a l => rw [hx] at h2; have := @h2 a.1 (by simp [PyDict.keys]); simp at this
      have hz : xz.z = [] := by
        cases hz : xz.z with
        | nil => rfl
        | cons a l => rw [hz] at h2; have := @h2 a.1 (by simp [PyDict.keys]); simp at this
      rw [if_pos ⟨hn, hx, hz⟩]
  | cons first rest =>
    simp only []
    by_cases h1 : xz.x.keys.toFinset ∪ xz.z.keys.toFinset ⊆ xz.og.measurements.keys.toFinset
    · rw [if_neg (not_not.2 h1)]
      by_cases h2 : xz.og.outputs.toFinset ≠ ∅ ∧ first ≠ xz.og.outputs.toFinset
      · rw [if_pos h2]
        constructor
        · intro h; simp at h
        · rintro ⟨⟨⟨-, h⟩, -⟩, -⟩; exact absurd (h first rest rfl h2.1) h2.2
      · rw [if_neg h2]
        simp only [bind_ok_iff, XZCorrections.checkLayers_ok xz ord hord, unionL_reverse, Finset.empty_union]
        constructor
        · rintro ⟨p, ⟨rfl, h3⟩, h4⟩
          refine ⟨⟨⟨by simp, ?_⟩, h3, ?_⟩, h1⟩
          · intro a b hab hne
            simp only [List.cons.injEq] at hab
            rw [← hab.1]; by_contra hne2; exact h2 ⟨hne, hne2⟩
          · by_contra hne; rw [if_pos hne] at h4; simp at h4
        · rintro ⟨⟨-, h3, h4⟩, -⟩
          exact ⟨_, ⟨rfl, h3⟩, by rw [if_neg (not_not.2 h4)]⟩
    · rw [if_pos h1]
      constructor
      · intro h; simp at h
      · rintro ⟨-, h⟩; exact absurd h h1

/-! Non-vacuity. -/

/-- A set order that computes. -/
def exOrd : SetOrd := fun _ _ s => if s ⊆ Finset.range 10 then (List.range 10).filter (· ∈ s) else s.sort (· ≤ ·)

theorem exOrd_valid : exOrd.Valid := by
  intro a b s
  unfold exOrd
  by_cases h : s ⊆ Finset.range 10
  · rw [if_pos h]
    refine ⟨List.nodup_range.filter _, fun x => ?_⟩
    simp only [List.mem_filter, List.mem_range, decide_eq_true_eq, and_iff_right_iff_imp]
    intro hx; simpa using h hx
  · rw [if_neg h]; exact ⟨Finset.sort_nodup _ _, fun x => Finset.mem_sort _⟩

/-- A path `0 - 1 - 2 - 3` with input 0 and output 3. -/
noncomputable def exOg (l : Fin 3 → Measurement) : OpenGraph where
  nodes := {0, 1, 2, 3}
  edges := [(0, 1), (1, 2), (2, 3)]
  inputs := [0]
  outputs := [3]
  measurements := [(0, l 0), (1, l 1), (2, l 2)]
  cliffords := [(3, Clifford.H)]

theorem exOg_valid (l) : (exOg l).Valid where
  post := rfl
  edge_mem := by simp [exOg]; omega
  edge_once := by simp [exOg]
  meas_keys := by simp [exOg, PyDict.keys]
  clif_keys := by simp [exOg, PyDict.keys]

noncomputable def exLabels : Fin 3 → Measurement := ![.bloch ⟨1/4, .XY⟩, .bloch ⟨1/8, .XY⟩, .bloch ⟨1/8, .XY⟩]
noncomputable def exLabelsP : Fin 3 → Measurement := ![.bloch ⟨1/4, .XY⟩, .pauli ⟨.Y, .plus⟩, .pauli ⟨.X, .plus⟩]

/-- The causal flow of the path. -/
noncomputable def exFlow (l : Fin 3 → Measurement) : Flow := ⟨exOg l, [(0, {1}), (1, {2}), (2, {3})], [{3}, {2}, {1}, {0}]⟩

/-- A Pauli flow of the path, in which 1 and 2 are measured first. -/
noncomputable def exFlowP : Flow := ⟨exOg exLabelsP, [(0, {1, 2, 3}), (1, {2}), (2, {3})], [{3}, {0}, {1, 2}]⟩

example : IsCausalFlow (exFlow exLabels) :=
  (C29_causalflow (exFlow exLabels) (exOg_valid _) (by simp [exFlow, PyDict.keys]) exOrd exOrd_valid).1 rfl

example : IsGFlow (exFlow exLabels) :=
  (C29_gflow (exFlow exLabels) (exOg_valid _) (by simp [exFlow, PyDict.keys]) exOrd exOrd_valid).1 rfl

theorem exFlowP_pauli : IsPauliFlow exFlowP :=
  (C29_pauliflow exFlowP (exOg_valid _) (by simp [exFlowP, PyDict.keys]) exOrd exOrd_valid).1 rfl

/-- It is not a gflow. -/
example : ¬ IsGFlow exFlowP := fun h => by
  have := (C29_gflow exFlowP (exOg_valid _) (by simp [exFlowP, PyDict.keys]) exOrd exOrd_valid).2 h
  cases this

end Graphix
