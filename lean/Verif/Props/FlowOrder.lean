import Verif.Model.FlowOrder
import Verif.Props.PartialOrder
import Verif.Props.Determinism

/-!
# C51: the partial order induced by corrections
-/

namespace Graphix

open FlowOrder

/-- `v` is corrected depending on the outcome of `u`. -/
def Corrects (x z : PyDict ℕ (Finset ℕ)) (u v : ℕ) : Prop := InD x u v ∨ InD z u v

/-- The same relation between nodes that are not outputs. -/
def CorrectsInside (o : Finset ℕ) (x z : PyDict ℕ (Finset ℕ)) (u v : ℕ) : Prop := u ∉ o ∧ v ∉ o ∧ Corrects x z u v

theorem mem_pairs {ord : SetOrd} (hord : ord.Valid) {o : Finset ℕ} {d : PyDict ℕ (Finset ℕ)} (hk : d.keys.Nodup) (u v : ℕ) :
    (u, v) ∈ pairs ord o d ↔ u ∉ o ∧ v ∉ o ∧ InD d u v := by
  unfold pairs
  rw [List.mem_flatMap]
  constructor
  · rintro ⟨kv, hkv, h⟩
    split at h
    · rename_i ho
      obtain ⟨c, hc, he⟩ := List.mem_map.1 h
      rw [Prod.mk.injEq] at he
      obtain ⟨rfl, rfl⟩ := he
      rw [(hord _ _ _).2, Finset.mem_sdiff] at hc
      exact ⟨ho, hc.2, kv.2, PyDict.get?_of_mem hk hkv, hc.1⟩
    · simp at h
  · rintro ⟨hu, hv, s, hs, hvs⟩
    refine ⟨(u, s), PyDict.mem_of_get? hs, ?_⟩
    rw [if_pos hu, List.mem_map]
    exact ⟨v, ((hord _ _ _).2 v).2 (Finset.mem_sdiff.2 ⟨hvs, hv⟩), rfl⟩

/-- The state of the loops describes the edges processed so far. -/
structure EdgeInv (E : Finset (ℕ × ℕ)) (st : PyDict ℕ (Finset ℕ) × PyDict ℕ ℤ) : Prop where
  dag : ∀ u v, v ∈ (st.1.get? u).getD ∅ ↔ (u, v) ∈ E
  indeg : ∀ v c, st.2.get? v = some c ↔ c = (E.filter (·.2 = v)).card ∧ c ≠ 0
  nodup : st.2.keys.Nodup

theorem EdgeInv.add {E : Finset (ℕ × ℕ)} {st : PyDict ℕ (Finset ℕ) × PyDict ℕ ℤ} (h : EdgeInv E st) (e : ℕ × ℕ) :
    EdgeInv (insert e E) (addEdge st e) := by
  obtain ⟨a, b⟩ := e
  unfold addEdge
  simp only []
  split
  · rename_i hn
    rw [h.dag] at hn
    refine ⟨?_, ?_, PyDict.keys_set_nodup h.nodup _ _⟩
    · intro u v
      rw [PyDict.get?_set, Finset.mem_insert, Prod.mk.injEq]
      by_cases hu : a = u
      · subst hu
        rw [if_pos rfl, Option.getD_some, Finset.mem_insert, h.dag]; simp
      · rw [if_neg hu, h.dag]; simp [Ne.symm hu]
    · intro v c
      rw [PyDict.get?_set, Finset.filter_insert]
      by_cases hv : b = v
      · subst hv
        rw [if_pos rfl, if_pos rfl, Finset.card_insert_of_notMem (by simp [hn])]
        have hd : (st.2.get? b).getD 0 = ((E.filter (·.2 = b)).card : ℤ) := by
          cases hg : st.2.get? b with
          | some k => exact ((h.indeg b k).1 hg).1
          | none =>
            by_contra hne
            have := (h.indeg b _).2 ⟨rfl, fun h0 => hne (by simp [h0])⟩
            rw [hg] at this; simp at this
        rw [hd]
        push_cast
        constructor
        · intro h'; have := Option.some.inj h'; constructor <;> omega
        · rintro ⟨h', -⟩; rw [h']
      · rw [if_neg hv, if_neg hv, h.indeg]
  · rename_i hn
    rw [not_not, h.dag] at hn
    rw [Finset.insert_eq_of_mem hn]; exact h

theorem edgeInv_foldl (l : List (ℕ × ℕ)) {E : Finset (ℕ × ℕ)} {st : PyDict ℕ (Finset ℕ) × PyDict ℕ ℤ} (h : EdgeInv E st) :
    EdgeInv (E ∪ l.toFinset) (l.foldl addEdge st) := by
  induction l generalizing E st with
  | nil => simpa using h
  | cons e l ih =>
    have := ih (h.add e)
    rw [List.foldl_cons, List.toFinset_cons]
    convert this using 1
    ext p; simp

theorem edgeInv_nil : EdgeInv ∅ ([], []) := ⟨by simp, by simp, by simp [PyDict.keys]⟩

/-- Layers of a stratification, outputs first and then the generations backwards. -/
theorem foldl_union_eq (l : List (Finset ℕ)) : l.foldl (· ∪ ·) ∅ = unionL l := by
  ext n
  rw [mem_unionL]
  have : ∀ (l : List (Finset ℕ)) (s : Finset ℕ), n ∈ l.foldl (· ∪ ·) s ↔ n ∈ s ∨ ∃ L ∈ l, n ∈ L := by
    intro l
    induction l with
    | nil => simp
    | cons a l ih => intro s; rw [List.foldl_cons, ih]; simp [or_assoc]
  rw [this]; simp

theorem cycle_inside {o : Finset ℕ} {R : ℕ → ℕ → Prop} (h : ∀ u v, R u v → u ∉ o) :
    HasCycle (fun u v => u ∉ o ∧ v ∉ o ∧ R u v) ↔ HasCycle R := by
  constructor
  · rintro ⟨n, hn⟩
    exact ⟨n, Relation.TransGen.mono (r := fun u v => u ∉ o ∧ v ∉ o ∧ R u v) (p := R) (fun a b h => h.2.2) n n hn⟩
  · rintro ⟨n, hn⟩
    have src : ∀ {a b}, Relation.TransGen R a b → a ∉ o := by
      intro a b hab
      obtain ⟨c, hc, -⟩ := Relation.TransGen.head'_iff.1 hab
      exact h a c hc
    have key : ∀ {a b}, Relation.TransGen R a b → b ∉ o → Relation.TransGen (fun u v => u ∉ o ∧ v ∉ o ∧ R u v) a b := by
      intro a b hab hb
      induction hab using Relation.TransGen.head_induction_on with
      | single h1 => exact .single ⟨h _ _ h1, hb, h1⟩
      | head h1 h2 ih => exact .head ⟨h _ _ h1, src h2, h1⟩ ih
    exact ⟨n, key hn (src hn)⟩

section

variable {og : OpenGraph} {ord : SetOrd} {x z : PyDict ℕ (Finset ℕ)}

/-- The state after the loops. -/
def orderState (og : OpenGraph) (ord : SetOrd) (x z : PyDict ℕ (Finset ℕ)) : PyDict ℕ (Finset ℕ) × PyDict ℕ ℤ :=
  (pairs ord og.outputs.toFinset x ++ pairs ord og.outputs.toFinset z).foldl addEdge ([], [])

/-- The edges. -/
def orderEdges (og : OpenGraph) (ord : SetOrd) (x z : PyDict ℕ (Finset ℕ)) : Finset (ℕ × ℕ) :=
  (pairs ord og.outputs.toFinset x ++ pairs ord og.outputs.toFinset z).toFinset

theorem mem_orderEdges (hord : ord.Valid) (hx : x.keys.Nodup) (hz : z.keys.Nodup) (u v : ℕ) :
    (u, v) ∈ orderEdges og ord x z ↔ CorrectsInside og.outputs.toFinset x z u v := by
  unfold orderEdges CorrectsInside Corrects
  rw [List.mem_toFinset, List.mem_append, mem_pairs hord hx, mem_pairs hord hz]
  tauto

/-- The nodes that take part in the order. -/
def orderNodes (og : OpenGraph) (ord : SetOrd) (x z : PyDict ℕ (Finset ℕ)) : Finset ℕ :=
  (og.nodes \ og.outputs.toFinset) ∪ (orderEdges og ord x z).image Prod.snd

theorem orderState_inv : EdgeInv (orderEdges og ord x z) (orderState og ord x z) := by
  have := edgeInv_foldl (pairs ord og.outputs.toFinset x ++ pairs ord og.outputs.toFinset z) edgeInv_nil
  rwa [Finset.empty_union] at this

theorem dagEdge_iff (hord : ord.Valid) (hx : x.keys.Nodup) (hz : z.keys.Nodup)
    (hkey : ∀ u, u ∈ x.keys ∨ u ∈ z.keys → u ∈ og.nodes ∧ u ∉ og.outputs) (u v : ℕ) :
    dagEdge (fun n => some (((orderState og ord x z).1.get? n).getD ∅)) (orderNodes og ord x z) u v ↔
      CorrectsInside og.outputs.toFinset x z u v := by
  unfold dagEdge
  rw [← mem_orderEdges hord hx hz]
  constructor
  · rintro ⟨-, ch, hch, hv⟩
    rw [← Option.some.inj hch, orderState_inv.dag] at hv; exact hv
  · intro h
    refine ⟨?_, _, rfl, (orderState_inv.dag u v).2 h⟩
    have h2 := (mem_orderEdges hord hx hz u v).1 h
    have hu : u ∈ x.keys ∨ u ∈ z.keys := by
      rcases h2.2.2 with ⟨s, hs, -⟩ | ⟨s, hs, -⟩
      · exact Or.inl ((PyDict.get?_isSome_iff _ _).1 (by rw [hs]; rfl))
      · exact Or.inr ((PyDict.get?_isSome_iff _ _).1 (by rw [hs]; rfl))
    have := hkey u hu
    unfold orderNodes
    simp [this]

open scoped Classical in
theorem parents_card (hord : ord.Valid) (hx : x.keys.Nodup) (hz : z.keys.Nodup)
    (hkey : ∀ u, u ∈ x.keys ∨ u ∈ z.keys → u ∈ og.nodes ∧ u ∉ og.outputs) (v : ℕ) :
    (dagParents (fun n => some (((orderState og ord x z).1.get? n).getD ∅)) (orderNodes og ord x z) v).card =
      ((orderEdges og ord x z).filter (·.2 = v)).card := by
  symm
  apply Finset.card_bij (fun e _ => e.1)
  · rintro ⟨a, b⟩ he
    rw [Finset.mem_filter] at he
    obtain ⟨h1, rfl⟩ := he
    have h2 := (dagEdge_iff hord hx hz hkey a b).2 ((mem_orderEdges hord hx hz a b).1 h1)
    exact Finset.mem_filter.2 ⟨h2.1, h2⟩
  · rintro ⟨a, b⟩ ha ⟨a', b'⟩ hb hab
    rw [Finset.mem_filter] at ha hb
    simp only at hab
    obtain ⟨-, rfl⟩ := ha
    obtain ⟨-, h2⟩ := hb
    rw [Prod.mk.injEq]; exact ⟨hab, h2.symm⟩
  · intro u hu
    have h2 := (Finset.mem_filter.1 hu).2
    exact ⟨(u, v), Finset.mem_filter.2 ⟨(mem_orderEdges hord hx hz u v).2 ((dagEdge_iff hord hx hz hkey u v).1 h2), rfl⟩, rfl⟩

theorem order_topoInput (hord : ord.Valid) (hx : x.keys.Nodup) (hz : z.keys.Nodup)
    (hkey : ∀ u, u ∈ x.keys ∨ u ∈ z.keys → u ∈ og.nodes ∧ u ∉ og.outputs) :
    TopoInput (fun n => some (((orderState og ord x z).1.get? n).getD ∅)) (orderNodes og ord x z) (orderState og ord x z).2
      ((og.nodes \ og.outputs.toFinset) \ (orderState og ord x z).2.keys.toFinset) := by
  have hinv : EdgeInv (orderEdges og ord x z) (orderState og ord x z) := orderState_inv
  have hcard := parents_card (og := og) hord hx hz hkey
  have hnode : ∀ v, ((orderEdges og ord x z).filter (·.2 = v)).card ≠ 0 → v ∈ orderNodes og ord x z := by
    intro v h
    obtain ⟨e, he⟩ := Finset.card_pos.1 (Nat.pos_of_ne_zero h)
    rw [Finset.mem_filter] at he
    exact Finset.mem_union_right _ (Finset.mem_image.2 ⟨e, he.1, he.2⟩)
  have hk : ∀ v, v ∈ (orderState og ord x z).2.keys ↔ ((orderEdges og ord x z).filter (·.2 = v)).card ≠ 0 := by
    intro v
    rw [← PyDict.get?_isSome_iff, Option.isSome_iff_exists]
    constructor
    · rintro ⟨c, hc⟩
      obtain ⟨h1, h2⟩ := (hinv.indeg v c).1 hc
      intro h0; rw [h0] at h1; exact h2 (by simpa using h1)
    · intro h
      exact ⟨_, (hinv.indeg v _).2 ⟨rfl, by exact_mod_cast h⟩⟩
  refine ⟨?_, hinv.nodup, ?_, ?_⟩
  · intro u _
    refine ⟨_, rfl, fun v hv => ?_⟩
    rw [hinv.dag] at hv
    exact Finset.mem_union_right _ (Finset.mem_image.2 ⟨(u, v), hv, rfl⟩)
  · intro v c
    rw [hinv.indeg, ne_eq (dagParents _ _ _), ← Finset.card_eq_zero, hcard]
    constructor
    · rintro ⟨h1, h2⟩
      have h3 : ((orderEdges og ord x z).filter (·.2 = v)).card ≠ 0 := by
        intro h0; rw [h0] at h1; exact h2 (by simpa using h1)
      exact ⟨hnode v h3, h3, h1⟩
    · rintro ⟨-, h2, h3⟩
      exact ⟨h3, by rw [h3]; exact_mod_cast h2⟩
  · intro v
    rw [← Finset.card_eq_zero, hcard, Finset.mem_sdiff, List.mem_toFinset, hk, not_not]
    constructor
    · rintro ⟨h1, h2⟩; exact ⟨Finset.mem_union_left _ h1, h2⟩
    · rintro ⟨h1, h2⟩
      refine ⟨?_, h2⟩
      rcases Finset.mem_union.1 h1 with h | h
      · exact h
      · obtain ⟨e, he, he'⟩ := Finset.mem_image.1 h
        rw [Finset.card_eq_zero] at h2
        have : e ∈ (orderEdges og ord x z).filter (·.2 = v) := Finset.mem_filter.2 ⟨he, he'⟩
        rw [h2] at this; simp at this

/-- The layers made of the generations. -/
theorem layers_of_generations (hv : og.Valid) (hord : ord.Valid) (hx : x.keys.Nodup) (hz : z.keys.Nodup)
    (hkey : ∀ u, u ∈ x.keys ∨ u ∈ z.keys → u ∈ og.nodes ∧ u ∉ og.outputs) (hval : ∀ u v, Corrects x z u v → v ∈ og.nodes)
    {gs : List (Finset ℕ)}
    (hg : IsGenerations (og.nodes \ og.outputs.toFinset) (CorrectsInside og.outputs.toFinset x z) gs) :
    ∀ layers, layers = (if og.outputs.toFinset ≠ ∅ then og.outputs.toFinset :: gs.reverse else gs.reverse) →
      LayersOk og layers ∧ ∀ u v, Corrects x z u v → Before layers u v := by
  obtain ⟨-, -, ho, -, -, -⟩ := og.postInit_ok hv.post
  intro layers hl
  have hdis : gs.reverse.Pairwise Disjoint := by
    rw [List.pairwise_reverse]; exact hg.disjoint.imp fun h => h.symm
  have hsrc : ∀ u v, Corrects x z u v → u ∈ og.nodes ∧ u ∉ og.outputs := by
    intro u v h
    apply hkey
    rcases h with ⟨s, hs, -⟩ | ⟨s, hs, -⟩
    · exact Or.inl ((PyDict.get?_isSome_iff _ _).1 (by rw [hs]; rfl))
    · exact Or.inr ((PyDict.get?_isSome_iff _ _).1 (by rw [hs]; rfl))
  have hrev : ∀ {i : ℕ} {L : Finset ℕ}, gs[i]? = some L → gs.reverse[gs.length - 1 - i]? = some L ∧ i < gs.length := by
    intro i L h
    have hi : i < gs.length := by
      by_contra hc; rw [List.getElem?_eq_none (by omega)] at h; simp at h
    refine ⟨?_, hi⟩
    rw [List.getElem?_reverse (by omega), ← h]; congr 1; omega
  have hin : ∀ u v, CorrectsInside og.outputs.toFinset x z u v → Before gs.reverse u v := by
    intro u v h
    obtain ⟨hu, hv', hc⟩ := h
    have hun : u ∈ og.nodes \ og.outputs.toFinset := Finset.mem_sdiff.2 ⟨(hsrc u v hc).1, hu⟩
    have hvn : v ∈ og.nodes \ og.outputs.toFinset := Finset.mem_sdiff.2 ⟨hval u v hc, hv'⟩
    obtain ⟨L, hL, huL⟩ := (hg.cover u).1 hun
    obtain ⟨K, hK, hvK⟩ := (hg.cover v).1 hvn
    obtain ⟨i, hi⟩ := List.mem_iff_getElem?.1 hL
    obtain ⟨j, hj⟩ := List.mem_iff_getElem?.1 hK
    have hlt := hg.edges u v hun ⟨hu, hv', hc⟩ i j L K hi hj huL hvK
    obtain ⟨a1, a2⟩ := hrev hi
    obtain ⟨b1, b2⟩ := hrev hj
    exact ⟨_, _, L, K, a1, b1, by omega, huL, hvK⟩
  by_cases hne : og.outputs.toFinset = ∅
  · rw [if_neg (by simp [hne])] at hl
    subst hl
    have hout : og.outputs = [] := by simpa using hne
    refine ⟨⟨fun h => absurd hout h, fun L hL => hg.nonempty L (by simpa using hL), hdis, ?_⟩, ?_⟩
    · intro v
      have := hg.cover v
      rw [hne] at this
      simpa using this
    · intro u v h
      exact hin u v ⟨by simp [hne], by simp [hne], h⟩
  · rw [if_pos hne] at hl
    subst hl
    refine ⟨⟨fun _ => rfl, ?_, ?_, ?_⟩, ?_⟩
    · intro L hL
      rcases List.mem_cons.1 hL with rfl | hL
      · exact Finset.nonempty_iff_ne_empty.2 hne
      · exact hg.nonempty L (by simpa using hL)
    · rw [List.pairwise_cons]
      refine ⟨fun L hL => ?_, hdis⟩
      rw [Finset.disjoint_left]
      intro v hv1 hv2
      have := (hg.cover v).2 ⟨L, by simpa using hL, hv2⟩
      exact (Finset.mem_sdiff.1 this).2 hv1
    · intro v
      have := hg.cover v
      simp only [List.mem_cons, exists_eq_or_imp, List.mem_reverse]
      rw [← this, Finset.mem_sdiff]
      by_cases hvo : v ∈ og.outputs.toFinset
      · simp [hvo, ho hvo]
      · simp [hvo]
    · intro u v h
      have hu := hsrc u v h
      by_cases hvo : v ∈ og.outputs.toFinset
      · obtain ⟨L, hL, huL⟩ := (hg.cover u).1 (Finset.mem_sdiff.2 ⟨hu.1, by simpa using hu.2⟩)
        have hL' : L ∈ gs.reverse := by simpa using hL
        obtain ⟨i, hi⟩ := List.mem_iff_getElem?.1 hL'
        exact ⟨i + 1, 0, L, _, by simpa using hi, rfl, by omega, huL, hvo⟩
      · obtain ⟨i, j, K, L, h1, h2, h3, h4, h5⟩ := hin u v ⟨by simpa using hu.2, hvo, h⟩
        exact ⟨i + 1, j + 1, K, L, by simpa using h1, by simpa using h2, by omega, h4, h5⟩

/-- What `_corrections_to_partial_order_layers` returns. -/
theorem correctionsToPartialOrderLayers_spec (hv : og.Valid) (hord : ord.Valid) (hx : x.keys.Nodup) (hz : z.keys.Nodup)
    (hkey : ∀ u, u ∈ x.keys ∨ u ∈ z.keys → u ∈ og.nodes ∧ u ∉ og.outputs) :
    ((∀ u v, Corrects x z u v → v ∈ og.nodes) ∧ ¬ HasCycle (Corrects x z) →
      ∃ layers, correctionsToPartialOrderLayers og ord x z = .ok layers ∧ LayersOk og layers ∧
        ∀ u v, Corrects x z u v → Before layers u v) ∧
    (¬ ((∀ u v, Corrects x z u v → v ∈ og.nodes) ∧ ¬ HasCycle (Corrects x z)) →
      correctionsToPartialOrderLayers og ord x z = .error .xzCorrectionsError) := by
  obtain ⟨-, -, ho, -, -, -⟩ := og.postInit_ok hv.post
  have hsrc : ∀ u v, Corrects x z u v → u ∈ og.nodes ∧ u ∉ og.outputs := by
    intro u v h
    apply hkey
    rcases h with ⟨s, hs, -⟩ | ⟨s, hs, -⟩
    · exact Or.inl ((PyDict.get?_isSome_iff _ _).1 (by rw [hs]; rfl))
    · exact Or.inr ((PyDict.get?_isSome_iff _ _).1 (by rw [hs]; rfl))
  obtain ⟨res, h1, h2, h3⟩ := C26_topological_generations _ _ _ _ (order_topoInput (og := og) hord hx hz hkey) (ord 10 0)
    (fun s => hord 10 0 s)
  have hrel : dagEdge (fun n => some (((orderState og ord x z).1.get? n).getD ∅)) (orderNodes og ord x z) =
      CorrectsInside og.outputs.toFinset x z := by
    funext u v; exact propext (dagEdge_iff hord hx hz hkey u v)
  rw [hrel] at h2 h3
  have hcyc : HasCycle (CorrectsInside og.outputs.toFinset x z) ↔ HasCycle (Corrects x z) :=
    cycle_inside (fun u v h => by simpa using (hsrc u v h).2)
  rw [hcyc] at h3
  have hval_iff : (∀ u v, Corrects x z u v → v ∈ og.nodes) ↔ orderNodes og ord x z = og.nodes \ og.outputs.toFinset := by
    constructor
    · intro h
      unfold orderNodes
      rw [Finset.union_eq_left]
      intro v hv'
      obtain ⟨⟨a, b⟩, he, rfl⟩ := Finset.mem_image.1 hv'
      have := (mem_orderEdges hord hx hz a b).1 he
      exact Finset.mem_sdiff.2 ⟨h a b this.2.2, this.2.1⟩
    · intro h u v hc
      by_cases hvo : v ∈ og.outputs.toFinset
      · exact ho hvo
      · have : v ∈ orderNodes og ord x z := by
          refine Finset.mem_union_right _ (Finset.mem_image.2 ⟨(u, v), (mem_orderEdges hord hx hz u v).2 ⟨?_, hvo, hc⟩, rfl⟩)
          simpa using (hsrc u v hc).2
        rw [h] at this
        exact (Finset.mem_sdiff.1 this).1
  unfold correctionsToPartialOrderLayers
  simp only [orderState] at h1
  simp only [h1, bind, Except.bind]
  cases res with
  | none =>
    have hc := h3.1 rfl
    exact ⟨fun h => absurd hc h.2, fun _ => rfl⟩
  | some gs =>
    have hg := h2 gs rfl
    have hnc : ¬ HasCycle (Corrects x z) := fun h => by simpa using h3.2 h
    have hun : unionL gs = orderNodes og ord x z := by
      ext v; rw [mem_unionL, ← hg.cover]
    cases gs with
    | nil =>
      have hemp : orderNodes og ord x z = ∅ := by rw [← hun]; rfl
      have hval := hval_iff.2 (by
        rw [hemp]; symm; rw [← Finset.subset_empty, ← hemp]; exact Finset.subset_union_left)
      rw [hval_iff.1 hval] at hg
      refine ⟨fun _ => ?_, fun h => absurd ⟨hval, hnc⟩ h⟩
      have hl := layers_of_generations hv hord hx hz hkey hval hg _ rfl
      by_cases hne : og.outputs.toFinset = ∅
      · rw [if_neg (by simp [hne])] at hl ⊢
        exact ⟨_, rfl, hl⟩
      · rw [if_pos hne] at hl ⊢
        exact ⟨_, rfl, hl⟩
    | cons g gs =>
      simp only [foldl_union_eq, hun]
      by_cases hval : ∀ u v, Corrects x z u v → v ∈ og.nodes
      · refine ⟨fun _ => ?_, fun h => absurd ⟨hval, hnc⟩ h⟩
        have hV := hval_iff.1 hval
        rw [hV] at hg
        have hl := layers_of_generations hv hord hx hz hkey hval hg _ rfl
        rw [hV, if_neg (by simp)]
        have h0 : (og.nodes \ (og.nodes \ og.outputs.toFinset)) \ og.outputs.toFinset = ∅ := by
          ext v; simp
        simp only [h0, ne_eq, not_true_eq_false, if_false]
        by_cases hne : og.outputs.toFinset = ∅
        · rw [if_neg (by simp [hne])] at hl ⊢
          exact ⟨_, rfl, hl⟩
        · rw [if_pos hne] at hl ⊢
          exact ⟨_, rfl, hl⟩
      · refine ⟨fun h => absurd h.1 hval, fun _ => ?_⟩
        rw [if_pos]
        intro hsub
        apply hval
        intro u v hc
        by_cases hvo : v ∈ og.outputs.toFinset
        · exact ho hvo
        · apply hsub
          refine Finset.mem_union_right _ (Finset.mem_image.2 ⟨(u, v), (mem_orderEdges hord hx hz u v).2 ⟨?_, hvo, hc⟩, rfl⟩)
          simpa using (hsrc u v hc).2

end

/-- **C51.** What `from_measured_nodes_mapping` does, for every valid open graph, all correction dictionaries and every
iteration order of sets: it raises an `XZCorrectionsError` when a key is not measured, a corrected node is not in the
graph, or the corrections form a closed loop; otherwise it returns the corrections with a partial order for which they
are well formed (`CorrectionsOk`), and `check_well_formed` accepts the result. -/
theorem C51_from_measured_nodes_mapping (og : OpenGraph) (hv : og.Valid) (ord : SetOrd) (hord : ord.Valid)
    (x z : PyDict ℕ (Finset ℕ)) (hx : x.keys.Nodup) (hz : z.keys.Nodup) :
    ((∀ u, u ∈ x.keys ∨ u ∈ z.keys → u ∈ og.nodes ∧ u ∉ og.outputs) ∧
        (∀ u v, Corrects x z u v → v ∈ og.nodes) ∧ ¬ HasCycle (Corrects x z) →
      ∃ xz, XZCorrections.fromMeasuredNodesMapping og ord x z = .ok xz ∧ xz.og = og ∧ xz.x = x ∧ xz.z = z ∧
        CorrectionsOk xz ∧ xz.checkWellFormed ord = .ok ()) ∧
    (¬ ((∀ u, u ∈ x.keys ∨ u ∈ z.keys → u ∈ og.nodes ∧ u ∉ og.outputs) ∧
        (∀ u v, Corrects x z u v → v ∈ og.nodes) ∧ ¬ HasCycle (Corrects x z)) →
      XZCorrections.fromMeasuredNodesMapping og ord x z = .error .xzCorrectionsError) := by
  obtain ⟨hm, -, -, -, -, -⟩ := og.postInit_ok hv.post
  have hkeys : (∀ u, u ∈ x.keys ∨ u ∈ z.keys → u ∈ og.nodes ∧ u ∉ og.outputs) ↔
      (x.keys.toFinset ∪ z.keys.toFinset) ⊆ og.measurements.keys.toFinset := by
    rw [hm, Finset.subset_iff]
    simp
  unfold XZCorrections.fromMeasuredNodesMapping
  by_cases hk : ∀ u, u ∈ x.keys ∨ u ∈ z.keys → u ∈ og.nodes ∧ u ∉ og.outputs
  · rw [if_neg (not_not.2 (hkeys.1 hk))]
    obtain ⟨hgood, hbad⟩ := correctionsToPartialOrderLayers_spec hv hord hx hz hk
    constructor
    · rintro ⟨-, h⟩
      obtain ⟨layers, h1, h2, h3⟩ := hgood h
      have hok : CorrectionsOk ⟨og, x, z, layers⟩ := by
        refine ⟨?_, h2, fun u s v h h' _ => h3 u v (Or.inl ⟨s, h, h'⟩), fun u s v h h' _ => h3 u v (Or.inr ⟨s, h, h'⟩)⟩
        rintro u (⟨s, hs⟩ | ⟨s, hs⟩)
        · exact hk u (Or.inl ((PyDict.get?_isSome_iff _ _).1 (by rw [hs]; rfl)))
        · exact hk u (Or.inr ((PyDict.get?_isSome_iff _ _).1 (by rw [hs]; rfl)))
      refine ⟨⟨og, x, z, layers⟩, ?_, rfl, rfl, rfl, hok, (C29_xzcorrections _ hv ord hord).2 hok⟩
      simp only [h1, bind, Except.bind, pure, Except.pure]
    · intro h
      rw [hbad fun h' => h ⟨hk, h'⟩]; rfl
  · rw [if_pos fun h => hk (hkeys.2 h)]
    exact ⟨fun h => absurd h.1 hk, fun _ => rfl⟩

/-! Non-vacuity: the corrections of the causal flow of the path are accepted and get the layers of the path; a closed
loop and a node outside the graph are refused. -/

example : XZCorrections.fromMeasuredNodesMapping (exOg exLabels) exOrd [(0, {1}), (1, {2}), (2, {3})] [(0, {2}), (1, {3})] =
    .ok exXZ := rfl
example : XZCorrections.fromMeasuredNodesMapping (exOg exLabels) exOrd [(0, {1}), (1, {2})] [(2, {0})] =
    .error .xzCorrectionsError := rfl
example : XZCorrections.fromMeasuredNodesMapping (exOg exLabels) exOrd [(0, {7})] [] = .error .xzCorrectionsError := rfl
example : ∃ xz, XZCorrections.fromMeasuredNodesMapping (exOg exLabels) exOrd [(0, {1})] [] = .ok xz ∧ CorrectionsOk xz := by
  obtain ⟨h, -⟩ := C51_from_measured_nodes_mapping (exOg exLabels) (exOg_valid _) exOrd exOrd_valid [(0, {1})] []
    (by simp [PyDict.keys]) (by simp [PyDict.keys])
  have key : ∀ u v, Corrects [(0, {1})] [] u v → u = 0 ∧ v = 1 := by
    rintro u v (⟨s, h, h'⟩ | ⟨s, h, h'⟩)
    · have := PyDict.mem_of_get? h
      simp only [List.mem_cons, Prod.mk.injEq, List.not_mem_nil, or_false] at this
      obtain ⟨rfl, rfl⟩ := this
      simpa using h'
    · cases h
  obtain ⟨xz, h1, -, -, -, h2, -⟩ := h ⟨by simp [PyDict.keys, exOg], fun u v hc => by
    obtain ⟨-, rfl⟩ := key u v hc; simp [exOg], by
    rintro ⟨n, hn⟩
    obtain ⟨a, ha, -⟩ := Relation.TransGen.head'_iff.1 hn
    obtain ⟨b, -, hb⟩ := Relation.TransGen.tail'_iff.1 hn
    have := (key _ _ ha).1
    have := (key _ _ hb).2
    omega⟩
  exact ⟨xz, h1, h2⟩

end Graphix
