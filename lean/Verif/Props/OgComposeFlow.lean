import Verif.Props.OgComposeSem

/-!
# Property C62: composition of open graphs (flows)
-/

namespace Graphix
namespace OpenGraph

section
variable {a b og : OpenGraph} {f : ℕ → ℕ}

/-- `w` is measured by the first open graph. -/
def Early (a : OpenGraph) (w : ℕ) : Prop := w ∈ a.nodes ∧ w ∉ a.outputs

theorem not_early (hf : Feeds a b f) {v : ℕ} (hv : v ∈ b.nodes) : ¬ Early a (f v) := fun h => h.2 (hf v hv h.1).2

theorem adj_early (hb : b.Valid) (hm : IsMerge a b f og) (hf : Feeds a b f) {w x : ℕ} (hw : Early a w) :
    og.Adj w x ↔ a.Adj w x := by
  rw [hm.edges]
  constructor
  · rintro (h | ⟨v, v', h, rfl, -⟩)
    · exact h
    · refine absurd hw (not_early hf ?_)
      rcases h with h | h
      · exact (hb.edge_mem _ _ h).1
      · exact (hb.edge_mem _ _ h).2
  · exact Or.inl

theorem inOdd_early (hb : b.Valid) (hm : IsMerge a b f og) (hf : Feeds a b f) {w : ℕ} (hw : Early a w) (s : Finset ℕ) :
    og.InOdd s w ↔ a.InOdd s w := by
  unfold InOdd
  rw [Finset.filter_congr fun x _ => adj_early hb hm hf hw]

theorem label_early (ha : a.Valid) (hm : IsMerge a b f og) (hf : Feeds a b f) {w : ℕ} (hw : Early a w) (l : Label) :
    og.HasLabel w l ↔ a.HasLabel w l := by
  obtain ⟨m, hm'⟩ := Option.isSome_iff_exists.1 ((ha.measured w).2 hw)
  have hnm : ¬ Merged a b f w := by
    rintro ⟨-, v, hv, rfl⟩; exact not_early hf hv hw
  unfold HasLabel
  rw [hm.meas_left w m hm' hnm, hm']

theorem Valid.adj_mem {og : OpenGraph} (h : og.Valid) {x y : ℕ} (hxy : og.Adj x y) : x ∈ og.nodes ∧ y ∈ og.nodes := by
  rcases hxy with h' | h'
  · exact h.edge_mem _ _ h'
  · exact (h.edge_mem _ _ h').symm

/-- the neighbours of a node that only belongs to the second open graph -/
theorem adj_late (ha : a.Valid) (hb : b.Valid) (hinj : ∀ v ∈ b.nodes, ∀ w ∈ b.nodes, f v = f w → v = w)
    (hm : IsMerge a b f og) (hf : Feeds a b f) {x y : ℕ} (hx : x ∈ b.nodes) (hxi : x ∉ b.inputs) :
    og.Adj y (f x) ↔ ∃ y', b.Adj y' x ∧ f y' = y := by
  rw [hm.edges]
  constructor
  · rintro (h | ⟨v, v', h, rfl, e⟩)
    · exact absurd (hf x hx (ha.adj_mem h).2).1 hxi
    · have := hinj v' (hb.adj_mem h).2 x hx e
      subst this
      exact ⟨v, h, rfl⟩
  · rintro ⟨y', h, rfl⟩
    exact Or.inr ⟨y', x, h, rfl, rfl⟩

theorem inOdd_late (ha : a.Valid) (hb : b.Valid) (hinj : ∀ v ∈ b.nodes, ∀ w ∈ b.nodes, f v = f w → v = w)
    (hm : IsMerge a b f og) (hf : Feeds a b f) {s : Finset ℕ} (hs : ∀ x ∈ s, x ∈ b.nodes ∧ x ∉ b.inputs) :
    (∀ y ∈ b.nodes, (og.InOdd (s.image f) (f y) ↔ b.InOdd s y)) ∧
    ∀ w, (∀ y ∈ b.nodes, f y ≠ w) → ¬ og.InOdd (s.image f) w := by
  constructor
  · intro y hy
    unfold InOdd
    rw [Finset.filter_image, Finset.card_image_of_injOn]
    · have e : (s.filter fun x => og.Adj (f y) (f x)) = s.filter (b.Adj y) := Finset.filter_congr fun x hx => ?_
      · rw [e]
      rw [adj_late ha hb hinj hm hf (hs x hx).1 (hs x hx).2]
      constructor
      · rintro ⟨y', h, e⟩
        rwa [← hinj y' (hb.adj_mem h).1 y hy e]
      · exact fun h => ⟨y, h, rfl⟩
    · intro x hx x' hx' e
      exact hinj x (hs x (Finset.mem_filter.1 hx).1).1 x' (hs x' (Finset.mem_filter.1 hx').1).1 e
  · intro w hw
    unfold InOdd
    rw [Finset.filter_image, Finset.filter_false_of_mem]
    · simp
    · intro x hx h
      obtain ⟨y', h', e⟩ := (adj_late ha hb hinj hm hf (hs x hx).1 (hs x hx).2).1 h
      exact hw y' (hb.adj_mem h').1 e

theorem label_late (hb : b.Valid) (hog : og.Valid) (hm : IsMerge a b f og) (hf : Feeds a b f)
    (hc : ∀ v ∈ b.nodes, a.cliffords.get? (f v) = none) {v : ℕ} (hv : v ∈ b.nodes) (l : Label) :
    og.HasLabel (f v) l ↔ b.HasLabel v l := by
  unfold HasLabel
  cases hbm : b.measurements.get? v with
  | some m => rw [hm.meas_right v m hbm, hc v hv]; rfl
  | none =>
    have hvo : v ∈ b.outputs := by
      by_contra h
      have := (hb.measured v).2 ⟨hv, h⟩
      rw [hbm] at this; simp at this
    have hwo : f v ∈ og.outputs := by
      rw [hm.outputs, List.mem_append, List.mem_filter, List.mem_filter]
      have h2 : f v ∈ b.outputs.map f := List.mem_map_of_mem hvo
      by_cases h : Merged a b f (f v)
      · exact Or.inl ⟨(hf v hv h.1).2, by simp only [decide_eq_true_eq]; exact Or.inr h2⟩
      · exact Or.inr ⟨h2, by simpa using h⟩
    have : og.measurements.get? (f v) = none := by
      by_contra hne
      exact ((hog.measured _).1 (by rwa [Option.isSome_iff_ne_none])).2 hwo
    rw [this]

theorem measured_cases (hm : IsMerge a b f og) {u : ℕ} (hu : u ∈ og.nodes) (huo : u ∉ og.outputs) :
    Early a u ∨ ∃ v ∈ b.nodes, v ∉ b.outputs ∧ f v = u := by
  rw [hm.outputs, List.mem_append, List.mem_filter, List.mem_filter] at huo
  simp only [decide_eq_true_eq] at huo
  push Not at huo
  by_cases h : Early a u
  · exact Or.inl h
  right
  by_cases hua : u ∈ a.nodes
  · have hao : u ∈ a.outputs := by by_contra hc; exact h ⟨hua, hc⟩
    obtain ⟨⟨-, v, hv, rfl⟩, h2⟩ := huo.1 hao
    exact ⟨v, hv, fun hvo => h2 (List.mem_map_of_mem hvo), rfl⟩
  · rcases (hm.nodes u).1 hu with h' | ⟨v, hv, rfl⟩
    · exact absurd h' hua
    · exact ⟨v, hv, fun hvo => hua (huo.2 (List.mem_map_of_mem hvo)).1, rfl⟩

theorem input_early (hb : b.Valid) (hm : IsMerge a b f og) {w : ℕ} (hw : w ∈ a.nodes) (hi : w ∉ a.inputs) :
    w ∈ og.nodes ∧ w ∉ og.inputs := by
  refine ⟨(hm.nodes w).2 (Or.inl hw), fun h => ?_⟩
  rw [hm.inputs, List.mem_append, List.mem_filter, List.mem_filter] at h
  simp only [decide_eq_true_eq] at h
  rcases h with ⟨h, -⟩ | ⟨h, h'⟩
  · exact hi h
  · obtain ⟨v, hv, e⟩ := List.mem_map.1 h
    exact h' ⟨hw, v, hb.input_mem hv, e⟩

theorem input_late (ha : a.Valid) (hb : b.Valid) (hinj : ∀ v ∈ b.nodes, ∀ w ∈ b.nodes, f v = f w → v = w)
    (hm : IsMerge a b f og) (hf : Feeds a b f) {v : ℕ} (hv : v ∈ b.nodes) (hi : v ∉ b.inputs) :
    f v ∈ og.nodes ∧ f v ∉ og.inputs := by
  refine ⟨(hm.nodes _).2 (Or.inr ⟨v, hv, rfl⟩), fun h => ?_⟩
  rw [hm.inputs, List.mem_append, List.mem_filter, List.mem_filter] at h
  simp only [decide_eq_true_eq] at h
  rcases h with ⟨h, -⟩ | ⟨h, -⟩
  · exact hi (hf v hv (ha.input_mem h)).1
  · exact hi ((mem_map_inj hinj (fun v hv => hb.input_mem hv) hv).1 h)

/-- First the order of the first open graph, then everything else. -/
def ltMerge (a b : OpenGraph) (f : ℕ → ℕ) (lt lt' : ℕ → ℕ → Prop) (x y : ℕ) : Prop :=
  (Early a x ∧ Early a y ∧ lt x y) ∨ (Early a x ∧ ¬ Early a y) ∨
    (∃ v ∈ b.nodes, ∃ w ∈ b.nodes, f v = x ∧ f w = y ∧ lt' v w)

theorem ltMerge_irrefl (hinj : ∀ v ∈ b.nodes, ∀ w ∈ b.nodes, f v = f w → v = w) {lt lt' : ℕ → ℕ → Prop}
    (h : ∀ x, ¬ lt x x) (h' : ∀ x, ¬ lt' x x) (x : ℕ) : ¬ ltMerge a b f lt lt' x x := by
  rintro (⟨-, -, h1⟩ | ⟨h1, h2⟩ | ⟨v, hv, w, hw, h1, h2, h3⟩)
  · exact h x h1
  · exact h2 h1
  · have := hinj v hv w hw (h1.trans h2.symm)
    subst this
    exact h' _ h3

theorem ltMerge_trans (hinj : ∀ v ∈ b.nodes, ∀ w ∈ b.nodes, f v = f w → v = w) (hf : Feeds a b f) {lt lt' : ℕ → ℕ → Prop}
    (h : ∀ x y z, lt x y → lt y z → lt x z) (h' : ∀ x y z, lt' x y → lt' y z → lt' x z) (x y z : ℕ)
    (hxy : ltMerge a b f lt lt' x y) (hyz : ltMerge a b f lt lt' y z) : ltMerge a b f lt lt' x z := by
  rcases hxy with ⟨h1, h2, h3⟩ | ⟨h1, h2⟩ | ⟨v, hv, w, hw, rfl, rfl, h3⟩
  · rcases hyz with ⟨-, k2, k3⟩ | ⟨-, k2⟩ | ⟨v, hv, w, hw, rfl, rfl, k3⟩
    · exact Or.inl ⟨h1, k2, h _ _ _ h3 k3⟩
    · exact Or.inr (Or.inl ⟨h1, k2⟩)
    · exact absurd h2 (not_early hf hv)
  · rcases hyz with ⟨k1, -, -⟩ | ⟨k1, -⟩ | ⟨v, hv, w, hw, rfl, rfl, k3⟩
    · exact absurd k1 h2
    · exact absurd k1 h2
    · exact Or.inr (Or.inl ⟨h1, not_early hf hw⟩)
  · rcases hyz with ⟨k1, -, -⟩ | ⟨k1, -⟩ | ⟨v', hv', w', hw', e, rfl, k3⟩
    · exact absurd k1 (not_early hf hw)
    · exact absurd k1 (not_early hf hw)
    · have := hinj v' hv' w hw e
      subst this
      exact Or.inr (Or.inr ⟨v, hv, w', hw', rfl, rfl, h' _ _ _ h3 k3⟩)

open Classical in
/-- The correction sets of both open graphs. -/
noncomputable def corrMerge (a b : OpenGraph) (f : ℕ → ℕ) (p p' : ℕ → Finset ℕ) (u : ℕ) : Finset ℕ :=
  if Early a u then p u else if h : ∃ v ∈ b.nodes, f v = u then (p' h.choose).image f else ∅

theorem corrMerge_early {p p' : ℕ → Finset ℕ} {u : ℕ} (hu : Early a u) : corrMerge a b f p p' u = p u := if_pos hu

theorem corrMerge_late (hinj : ∀ v ∈ b.nodes, ∀ w ∈ b.nodes, f v = f w → v = w) (hf : Feeds a b f) {p p' : ℕ → Finset ℕ} {v : ℕ}
    (hv : v ∈ b.nodes) : corrMerge a b f p p' (f v) = (p' v).image f := by
  unfold corrMerge
  have h : ∃ v' ∈ b.nodes, f v' = f v := ⟨v, hv, rfl⟩
  rw [if_neg (not_early hf hv), dif_pos h, hinj h.choose h.choose_spec.1 v hv h.choose_spec.2]

theorem pauliFlow_merge (ha : a.Valid) (hb : b.Valid) (hog : og.Valid)
    (hinj : ∀ v ∈ b.nodes, ∀ w ∈ b.nodes, f v = f w → v = w) (hm : IsMerge a b f og) (hf : Feeds a b f)
    (hc : ∀ v ∈ b.nodes, a.cliffords.get? (f v) = none) {p p' : ℕ → Finset ℕ} {lt lt' : ℕ → ℕ → Prop}
    (h : IsPauliFlowOf a p lt) (h' : IsPauliFlowOf b p' lt') :
    IsPauliFlowOf og (corrMerge a b f p p') (ltMerge a b f lt lt') := by
  have mem_image : ∀ (s : Finset ℕ), (∀ x ∈ s, x ∈ b.nodes) → ∀ y ∈ b.nodes, (f y ∈ s.image f ↔ y ∈ s) := by
    intro s hs y hy
    constructor
    · intro hx
      obtain ⟨x, hx, e⟩ := Finset.mem_image.1 hx
      exact hinj x (hs x hx) y hy e ▸ hx
    · exact fun hx => Finset.mem_image_of_mem f hx
  have lab := fun {w : ℕ} (hw : Early a w) l => label_early ha hm hf hw l
  have lab' := fun {v : ℕ} (hv : v ∈ b.nodes) l => label_late hb hog hm hf hc hv l
  have odd := fun {w : ℕ} (hw : Early a w) s => inOdd_early hb hm hf hw s
  have im' : ∀ v ∈ b.nodes, v ∉ b.outputs → ∀ x ∈ p' v, x ∈ b.nodes := fun v hv hvo x hx => (h'.image v hv hvo x hx).1
  have odd' : ∀ v ∈ b.nodes, v ∉ b.outputs → ∀ y ∈ b.nodes, (og.InOdd ((p' v).image f) (f y) ↔ b.InOdd (p' v) y) :=
    fun v hv hvo => (inOdd_late ha hb hinj hm hf (h'.image v hv hvo)).1
  have odd0 : ∀ v ∈ b.nodes, v ∉ b.outputs → ∀ w, (∀ y ∈ b.nodes, f y ≠ w) → ¬ og.InOdd ((p' v).image f) w :=
    fun v hv hvo => (inOdd_late ha hb hinj hm hf (h'.image v hv hvo)).2
  have ne' : ∀ {v w : ℕ}, f w ≠ f v → w ≠ v := fun hne e => hne (by rw [e])
  refine ⟨ltMerge_irrefl hinj h.irrefl h'.irrefl, ltMerge_trans hinj hf h.trans h'.trans, ?_, ?_, ?_, ?_, ?_, ?_, ?_, ?_, ?_, ?_⟩
  · intro u hu huo v hv
    rcases measured_cases hm hu huo with hE | ⟨x, hx, hxo, rfl⟩
    · rw [corrMerge_early hE] at hv
      have := h.image u hE.1 hE.2 v hv
      exact input_early hb hm this.1 this.2
    · rw [corrMerge_late hinj hf hx] at hv
      obtain ⟨y, hy, rfl⟩ := Finset.mem_image.1 hv
      have := h'.image x hx hxo y hy
      exact input_late ha hb hinj hm hf this.1 this.2
  · intro u hu huo v hv hne hl1 hl2
    rcases measured_cases hm hu huo with hE | ⟨x, hx, hxo, rfl⟩
    · rw [corrMerge_early hE] at hv
      by_cases hvE : Early a v
      · exact Or.inl ⟨hE, hvE, h.p1 u hE.1 hE.2 v hv hne (fun hl => hl1 ((lab hvE _).2 hl)) fun hl => hl2 ((lab hvE _).2 hl)⟩
      · exact Or.inr (Or.inl ⟨hE, hvE⟩)
    · rw [corrMerge_late hinj hf hx] at hv
      obtain ⟨y, hy, rfl⟩ := Finset.mem_image.1 hv
      have hyb := im' x hx hxo y hy
      exact Or.inr (Or.inr ⟨x, hx, y, hyb, rfl, rfl, h'.p1 x hx hxo y hy (ne' hne)
        (fun hl => hl1 ((lab' hyb _).2 hl)) fun hl => hl2 ((lab' hyb _).2 hl)⟩)
  · intro u hu huo v hv hodd hne hl1 hl2
    rcases measured_cases hm hu huo with hE | ⟨x, hx, hxo, rfl⟩
    · rw [corrMerge_early hE] at hodd
      by_cases hvE : Early a v
      · exact Or.inl ⟨hE, hvE, h.p2 u hE.1 hE.2 v hvE.1 ((odd hvE _).1 hodd) hne (fun hl => hl1 ((lab hvE _).2 hl))
          fun hl => hl2 ((lab hvE _).2 hl)⟩
      · exact Or.inr (Or.inl ⟨hE, hvE⟩)
    · rw [corrMerge_late hinj hf hx] at hodd
      by_cases hex : ∃ y ∈ b.nodes, f y = v
      · obtain ⟨y, hyb, rfl⟩ := hex
        exact Or.inr (Or.inr ⟨x, hx, y, hyb, rfl, rfl, h'.p2 x hx hxo y hyb ((odd' x hx hxo y hyb).1 hodd) (ne' hne)
          (fun hl => hl1 ((lab' hyb _).2 hl)) fun hl => hl2 ((lab' hyb _).2 hl)⟩)
      · push Not at hex
        exact absurd hodd (odd0 x hx hxo v hex)
  · intro u hu huo v hne hl hnlt
    rcases measured_cases hm hu huo with hE | ⟨x, hx, hxo, rfl⟩
    · have hvE : Early a v := by by_contra hc'; exact hnlt (Or.inr (Or.inl ⟨hE, hc'⟩))
      rw [corrMerge_early hE, odd hvE]
      exact h.p3 u hE.1 hE.2 v hne ((lab hvE _).1 hl) fun hlt => hnlt (Or.inl ⟨hE, hvE, hlt⟩)
    · rw [corrMerge_late hinj hf hx]
      by_cases hex : ∃ y ∈ b.nodes, f y = v
      · obtain ⟨y, hyb, rfl⟩ := hex
        rw [odd' x hx hxo y hyb, mem_image _ (im' x hx hxo) y hyb]
        exact h'.p3 x hx hxo y (ne' hne) ((lab' hyb _).1 hl) fun hlt => hnlt (Or.inr (Or.inr ⟨x, hx, y, hyb, rfl, rfl, hlt⟩))
      · push Not at hex
        constructor
        · intro hv
          obtain ⟨y, hy, rfl⟩ := Finset.mem_image.1 hv
          exact absurd rfl (hex y (im' x hx hxo y hy))
        · exact fun hodd => absurd hodd (odd0 x hx hxo v hex)
  · intro u hu huo hl
    rcases measured_cases hm hu huo with hE | ⟨x, hx, hxo, rfl⟩
    · rw [corrMerge_early hE, odd hE]; exact h.p4 u hE.1 hE.2 ((lab hE _).1 hl)
    · rw [corrMerge_late hinj hf hx, odd' x hx hxo x hx, mem_image _ (im' x hx hxo) x hx]
      exact h'.p4 x hx hxo ((lab' hx _).1 hl)
  · intro u hu huo hl
    rcases measured_cases hm hu huo with hE | ⟨x, hx, hxo, rfl⟩
    · rw [corrMerge_early hE, odd hE]; exact h.p5 u hE.1 hE.2 ((lab hE _).1 hl)
    · rw [corrMerge_late hinj hf hx, odd' x hx hxo x hx, mem_image _ (im' x hx hxo) x hx]
      exact h'.p5 x hx hxo ((lab' hx _).1 hl)
  · intro u hu huo hl
    rcases measured_cases hm hu huo with hE | ⟨x, hx, hxo, rfl⟩
    · rw [corrMerge_early hE, odd hE]; exact h.p6 u hE.1 hE.2 ((lab hE _).1 hl)
    · rw [corrMerge_late hinj hf hx, odd' x hx hxo x hx, mem_image _ (im' x hx hxo) x hx]
      exact h'.p6 x hx hxo ((lab' hx _).1 hl)
  · intro u hu huo hl
    rcases measured_cases hm hu huo with hE | ⟨x, hx, hxo, rfl⟩
    · rw [corrMerge_early hE, odd hE]; exact h.p7 u hE.1 hE.2 ((lab hE _).1 hl)
    · rw [corrMerge_late hinj hf hx, odd' x hx hxo x hx]
      exact h'.p7 x hx hxo ((lab' hx _).1 hl)
  · intro u hu huo hl
    rcases measured_cases hm hu huo with hE | ⟨x, hx, hxo, rfl⟩
    · rw [corrMerge_early hE]; exact h.p8 u hE.1 hE.2 ((lab hE _).1 hl)
    · rw [corrMerge_late hinj hf hx, mem_image _ (im' x hx hxo) x hx]
      exact h'.p8 x hx hxo ((lab' hx _).1 hl)
  · intro u hu huo hl
    rcases measured_cases hm hu huo with hE | ⟨x, hx, hxo, rfl⟩
    · rw [corrMerge_early hE, odd hE]; exact h.p9 u hE.1 hE.2 ((lab hE _).1 hl)
    · rw [corrMerge_late hinj hf hx, odd' x hx hxo x hx, mem_image _ (im' x hx hxo) x hx]
      exact h'.p9 x hx hxo ((lab' hx _).1 hl)

theorem gflow_merge (ha : a.Valid) (hb : b.Valid) (hog : og.Valid)
    (hinj : ∀ v ∈ b.nodes, ∀ w ∈ b.nodes, f v = f w → v = w) (hm : IsMerge a b f og) (hf : Feeds a b f)
    (hc : ∀ v ∈ b.nodes, a.cliffords.get? (f v) = none) {p p' : ℕ → Finset ℕ} {lt lt' : ℕ → ℕ → Prop}
    (h : IsGFlowOf a p lt) (h' : IsGFlowOf b p' lt') :
    IsGFlowOf og (corrMerge a b f p p') (ltMerge a b f lt lt') := by
  have mem_image : ∀ (s : Finset ℕ), (∀ x ∈ s, x ∈ b.nodes) → ∀ y ∈ b.nodes, (f y ∈ s.image f ↔ y ∈ s) := by
    intro s hs y hy
    constructor
    · intro hx
      obtain ⟨x, hx, e⟩ := Finset.mem_image.1 hx
      exact hinj x (hs x hx) y hy e ▸ hx
    · exact fun hx => Finset.mem_image_of_mem f hx
  have lab := fun {w : ℕ} (hw : Early a w) l => label_early ha hm hf hw l
  have lab' := fun {v : ℕ} (hv : v ∈ b.nodes) l => label_late hb hog hm hf hc hv l
  have odd := fun {w : ℕ} (hw : Early a w) s => inOdd_early hb hm hf hw s
  have im' : ∀ v ∈ b.nodes, v ∉ b.outputs → ∀ x ∈ p' v, x ∈ b.nodes := fun v hv hvo x hx => (h'.image v hv hvo x hx).1
  have odd' : ∀ v ∈ b.nodes, v ∉ b.outputs → ∀ y ∈ b.nodes, (og.InOdd ((p' v).image f) (f y) ↔ b.InOdd (p' v) y) :=
    fun v hv hvo => (inOdd_late ha hb hinj hm hf (h'.image v hv hvo)).1
  have odd0 : ∀ v ∈ b.nodes, v ∉ b.outputs → ∀ w, (∀ y ∈ b.nodes, f y ≠ w) → ¬ og.InOdd ((p' v).image f) w :=
    fun v hv hvo => (inOdd_late ha hb hinj hm hf (h'.image v hv hvo)).2
  have ne' : ∀ {v w : ℕ}, f w ≠ f v → w ≠ v := fun hne e => hne (by rw [e])
  refine ⟨ltMerge_irrefl hinj h.irrefl h'.irrefl, ltMerge_trans hinj hf h.trans h'.trans, ?_, ?_, ?_, ?_, ?_, ?_⟩
  · intro u hu huo v hv
    rcases measured_cases hm hu huo with hE | ⟨x, hx, hxo, rfl⟩
    · rw [corrMerge_early hE] at hv
      have := h.image u hE.1 hE.2 v hv
      exact input_early hb hm this.1 this.2
    · rw [corrMerge_late hinj hf hx] at hv
      obtain ⟨y, hy, rfl⟩ := Finset.mem_image.1 hv
      have := h'.image x hx hxo y hy
      exact input_late ha hb hinj hm hf this.1 this.2
  · intro u hu huo v hv hne
    rcases measured_cases hm hu huo with hE | ⟨x, hx, hxo, rfl⟩
    · rw [corrMerge_early hE] at hv
      by_cases hvE : Early a v
      · exact Or.inl ⟨hE, hvE, h.g1 u hE.1 hE.2 v hv hne⟩
      · exact Or.inr (Or.inl ⟨hE, hvE⟩)
    · rw [corrMerge_late hinj hf hx] at hv
      obtain ⟨y, hy, rfl⟩ := Finset.mem_image.1 hv
      have hyb := im' x hx hxo y hy
      exact Or.inr (Or.inr ⟨x, hx, y, hyb, rfl, rfl, h'.g1 x hx hxo y hy (ne' hne)⟩)
  · intro u hu huo v hv hodd hne
    rcases measured_cases hm hu huo with hE | ⟨x, hx, hxo, rfl⟩
    · rw [corrMerge_early hE] at hodd
      by_cases hvE : Early a v
      · exact Or.inl ⟨hE, hvE, h.g2 u hE.1 hE.2 v hvE.1 ((odd hvE _).1 hodd) hne⟩
      · exact Or.inr (Or.inl ⟨hE, hvE⟩)
    · rw [corrMerge_late hinj hf hx] at hodd
      by_cases hex : ∃ y ∈ b.nodes, f y = v
      · obtain ⟨y, hyb, rfl⟩ := hex
        exact Or.inr (Or.inr ⟨x, hx, y, hyb, rfl, rfl, h'.g2 x hx hxo y hyb ((odd' x hx hxo y hyb).1 hodd) (ne' hne)⟩)
      · push Not at hex
        exact absurd hodd (odd0 x hx hxo v hex)
  · intro u hu huo hl
    rcases measured_cases hm hu huo with hE | ⟨x, hx, hxo, rfl⟩
    · rw [corrMerge_early hE, odd hE]; exact h.g3 u hE.1 hE.2 ((lab hE _).1 hl)
    · rw [corrMerge_late hinj hf hx, odd' x hx hxo x hx, mem_image _ (im' x hx hxo) x hx]
      exact h'.g3 x hx hxo ((lab' hx _).1 hl)
  · intro u hu huo hl
    rcases measured_cases hm hu huo with hE | ⟨x, hx, hxo, rfl⟩
    · rw [corrMerge_early hE, odd hE]; exact h.g4 u hE.1 hE.2 ((lab hE _).1 hl)
    · rw [corrMerge_late hinj hf hx, odd' x hx hxo x hx, mem_image _ (im' x hx hxo) x hx]
      exact h'.g4 x hx hxo ((lab' hx _).1 hl)
  · intro u hu huo hl
    rcases measured_cases hm hu huo with hE | ⟨x, hx, hxo, rfl⟩
    · rw [corrMerge_early hE, odd hE]; exact h.g5 u hE.1 hE.2 ((lab hE _).1 hl)
    · rw [corrMerge_late hinj hf hx, odd' x hx hxo x hx, mem_image _ (im' x hx hxo) x hx]
      exact h'.g5 x hx hxo ((lab' hx _).1 hl)

theorem causalFlow_merge (ha : a.Valid) (hb : b.Valid) (hinj : ∀ v ∈ b.nodes, ∀ w ∈ b.nodes, f v = f w → v = w)
    (hm : IsMerge a b f og) (hf : Feeds a b f) (h : HasCausalFlow a) (h' : HasCausalFlow b) : HasCausalFlow og := by
  classical
  obtain ⟨g, lt, i1, i2, i3⟩ := h
  obtain ⟨g', lt', j1, j2, j3⟩ := h'
  refine ⟨fun u => if Early a u then g u else if h : ∃ v ∈ b.nodes, f v = u then f (g' h.choose) else 0, ltMerge a b f lt lt',
    ltMerge_irrefl hinj i1 j1, ltMerge_trans hinj hf i2 j2, fun u hu huo => ?_⟩
  rcases measured_cases hm hu huo with hE | ⟨x, hx, hxo, rfl⟩
  · dsimp only
    rw [if_pos hE]
    obtain ⟨k1, k2, k3, k4, k5⟩ := i3 u hE.1 hE.2
    refine ⟨(input_early hb hm k1 k2).1, (input_early hb hm k1 k2).2, (adj_early hb hm hf hE).2 k3, ?_, fun v hv hne => ?_⟩
    · by_cases hvE : Early a (g u)
      · exact Or.inl ⟨hE, hvE, k4⟩
      · exact Or.inr (Or.inl ⟨hE, hvE⟩)
    · by_cases hvE : Early a v
      · exact Or.inl ⟨hE, hvE, k5 v ((adj_early hb hm hf hvE).1 hv) hne⟩
      · exact Or.inr (Or.inl ⟨hE, hvE⟩)
  · have hex : ∃ v' ∈ b.nodes, f v' = f x := ⟨x, hx, rfl⟩
    dsimp only
    rw [if_neg (not_early hf hx), dif_pos hex, hinj hex.choose hex.choose_spec.1 x hx hex.choose_spec.2]
    obtain ⟨k1, k2, k3, k4, k5⟩ := j3 x hx hxo
    have hin := input_late ha hb hinj hm hf k1 k2
    refine ⟨hin.1, hin.2, (hm.edges _ _).2 (Or.inr ⟨x, _, k3, rfl, rfl⟩), Or.inr (Or.inr ⟨x, hx, _, k1, rfl, rfl, k4⟩),
      fun v hv hne => ?_⟩
    obtain ⟨y, hy, rfl⟩ := (adj_late ha hb hinj hm hf k1 k2).1 hv
    exact Or.inr (Or.inr ⟨x, hx, y, (hb.adj_mem hy).1, rfl, rfl, k5 y hy fun e => hne (by rw [e])⟩)

end

theorem compose_ok_inv {a b og : OpenGraph} {d mapping : PyDict ℕ ℕ} (ha : a.Valid) (hb : b.Valid) (hk : mapping.keys.Nodup)
    (h : a.compose b mapping = .ok (og, d)) : og.Valid ∧ ∃ g, (∀ v ∈ b.nodes, d.get? v = some (g v)) ∧ IsMerge a b g og ∧
      ∀ v ∈ b.nodes, ∀ w ∈ b.nodes, g v = g w → v = w := by
  obtain ⟨c1, c2, c3, c4⟩ := C62_compose a b ha hb mapping hk
  have hs : ∀ v ∈ mapping.keys, v ∈ b.nodes := by
    by_contra hc; push Not at hc
    rw [c1 hc] at h; cases h
  have hv : (mapping.map Prod.snd).Nodup := by
    by_contra hc; rw [c2 hc] at h; cases h
  have hne : a.nodes ≠ ∅ ∨ mapping ≠ [] := by
    by_contra hc
    push Not at hc
    rw [c3 hc.1 hc.2] at h; cases h
  have hcl : ∀ v u m m', mapping.get? v = some u → b.measurements.get? v = some m → a.measurements.get? u = some m' →
      m.isclose m' = true := by
    intro v u m m' h1 h2 h3
    by_contra hc
    rw [(c4 hs hv).1 ⟨v, u, m, m', h1, h2, h3, by simpa using hc⟩] at h; cases h
  obtain ⟨og', d', g, e, k1, k2, k3, -, -, k4⟩ := (c4 hs hv).2 hcl hne
  rw [h] at e
  cases e
  exact ⟨k1, g, fun v hv => by rw [k3, if_pos hv], k2, k4⟩

/-- **C62** (flows) when the outputs of `self` feed the inputs of `other` and the merged nodes have no Clifford in `self`, the
composed open graph has a Pauli flow when both have one; likewise for generalised flow and causal flow. -/
theorem C62_compose_flow (a b : OpenGraph) (ha : a.Valid) (hb : b.Valid) (mapping : PyDict ℕ ℕ) (hk : mapping.keys.Nodup)
    (og : OpenGraph) (d : PyDict ℕ ℕ) (h : a.compose b mapping = .ok (og, d)) (f : ℕ → ℕ)
    (hd : ∀ v ∈ b.nodes, d.get? v = some (f v)) (hf : Feeds a b f) (hc : ∀ v ∈ b.nodes, a.cliffords.get? (f v) = none) :
    (HasPauliFlow a → HasPauliFlow b → HasPauliFlow og) ∧ (HasGFlow a → HasGFlow b → HasGFlow og) ∧
      (HasCausalFlow a → HasCausalFlow b → HasCausalFlow og) := by
  obtain ⟨hog, g, hg, hm, hinj⟩ := compose_ok_inv ha hb hk h
  have hff : ∀ v ∈ b.nodes, g v = f v := fun v hv => Option.some.inj ((hg v hv).symm.trans (hd v hv))
  have hf' : Feeds a b g := fun v hv h => by rw [hff v hv] at h ⊢; exact hf v hv h
  have hc' : ∀ v ∈ b.nodes, a.cliffords.get? (g v) = none := fun v hv => by rw [hff v hv]; exact hc v hv
  refine ⟨?_, ?_, causalFlow_merge ha hb hinj hm hf'⟩
  · rintro ⟨p, lt, h1⟩ ⟨p', lt', h2⟩
    exact ⟨_, _, pauliFlow_merge ha hb hog hinj hm hf' hc' h1 h2⟩
  · rintro ⟨p, lt, h1⟩ ⟨p', lt', h2⟩
    exact ⟨_, _, gflow_merge ha hb hog hinj hm hf' hc' h1 h2⟩

end OpenGraph
end Graphix
