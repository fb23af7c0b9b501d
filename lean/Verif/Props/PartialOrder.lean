import Verif.Model.PartialOrder
import Verif.Spec.PartialOrder
import Mathlib.Order.WellFounded
import Mathlib.Data.Fintype.Basic
import Mathlib.Order.Preorder.Finite
import Mathlib.Data.Finite.Defs
import Mathlib.Data.Fintype.EquivFin
import Mathlib.Data.Finset.Prod
import Mathlib.Order.RelClasses

/-!
# Property C26: topological generations
-/

namespace Graphix

open scoped Classical

/-- The relation described by `dag` on the nodes `V`. -/
def dagEdge (dag : TopoGen.Dag) (V : Finset ℕ) (u v : ℕ) : Prop := u ∈ V ∧ ∃ ch, dag u = some ch ∧ v ∈ ch

/-- The nodes of `V` with an edge to `v`. -/
noncomputable def dagParents (dag : TopoGen.Dag) (V : Finset ℕ) (v : ℕ) : Finset ℕ := V.filter (fun u => dagEdge dag V u v)

/-- What `compute_topological_generations` requires: `dag` describes a relation on `V`, `indegree_map` gives the
number of parents of the nodes that have parents, `zero_indegree` is the set of those that have none. -/
structure TopoInput (dag : TopoGen.Dag) (V : Finset ℕ) (indeg : PyDict ℕ ℤ) (zero : Finset ℕ) : Prop where
  closed : ∀ u ∈ V, ∃ ch, dag u = some ch ∧ ch ⊆ V
  nodup : indeg.keys.Nodup
  indegree : ∀ v c, indeg.get? v = some c ↔ v ∈ V ∧ dagParents dag V v ≠ ∅ ∧ c = (dagParents dag V v).card
  zero : ∀ v, v ∈ zero ↔ v ∈ V ∧ dagParents dag V v = ∅

namespace TopoGen

variable {dag : Dag} {V : Finset ℕ}

/-- All edges. -/
noncomputable def edges (dag : Dag) (V : Finset ℕ) : Finset (ℕ × ℕ) := (V ×ˢ V).filter (fun e => dagEdge dag V e.1 e.2)

/-- The number of edges into `v` not yet processed. -/
noncomputable def rem (dag : Dag) (V : Finset ℕ) (Q : Finset (ℕ × ℕ)) (v : ℕ) : ℕ :=
  ((edges dag V \ Q).filter (fun e => e.2 = v)).card

theorem rem_eq_zero {Q : Finset (ℕ × ℕ)} {v : ℕ} : rem dag V Q v = 0 ↔ ∀ u, (u, v) ∈ edges dag V → (u, v) ∈ Q := by
  unfold rem
  rw [Finset.card_eq_zero, Finset.filter_eq_empty_iff]
  constructor
  · intro h u hu
    by_contra hq
    exact h (Finset.mem_sdiff.2 ⟨hu, hq⟩) rfl
  · rintro h ⟨u, w⟩ he rfl
    rw [Finset.mem_sdiff] at he
    exact he.2 (h u he.1)

theorem rem_insert_ne {Q : Finset (ℕ × ℕ)} {u c v : ℕ} (h : v ≠ c) : rem dag V (insert (u, c) Q) v = rem dag V Q v := by
  unfold rem
  congr 1
  ext ⟨a, b⟩
  simp only [Finset.mem_filter, Finset.mem_sdiff, Finset.mem_insert, Prod.mk.injEq, not_or, not_and]
  constructor
  · rintro ⟨⟨h1, h2, h3⟩, rfl⟩; exact ⟨⟨h1, h3⟩, rfl⟩
  · rintro ⟨⟨h1, h3⟩, rfl⟩; exact ⟨⟨h1, fun _ h2 => h h2, h3⟩, rfl⟩

theorem rem_insert_self {Q : Finset (ℕ × ℕ)} {u c : ℕ} (he : (u, c) ∈ edges dag V) (hq : (u, c) ∉ Q) :
    rem dag V Q c = rem dag V (insert (u, c) Q) c + 1 := by
  unfold rem
  rw [← Finset.card_insert_of_notMem (a := (u, c)) (s := (edges dag V \ insert (u, c) Q).filter (fun e => e.2 = c)) (by simp)]
  congr 1
  ext ⟨a, b⟩
  simp only [Finset.mem_filter, Finset.mem_sdiff, Finset.mem_insert, Prod.mk.injEq, not_or, not_and]
  constructor
  · rintro ⟨⟨h1, h2⟩, rfl⟩
    by_cases ha : a = u
    · exact Or.inl ⟨ha, rfl⟩
    · exact Or.inr ⟨⟨h1, fun h => absurd h ha, h2⟩, rfl⟩
  · rintro (⟨rfl, rfl⟩ | ⟨⟨h1, -, h2⟩, rfl⟩)
    · exact ⟨⟨he, hq⟩, rfl⟩
    · exact ⟨⟨h1, h2⟩, rfl⟩

/-- The state when the edges `Q` have been processed, `Q₀` at the beginning of the generation. -/
structure Inv (dag : Dag) (V : Finset ℕ) (Q₀ Q : Finset (ℕ × ℕ)) (st : St) : Prop where
  nodup : st.indeg.keys.Nodup
  indeg : ∀ v, st.indeg.get? v = if rem dag V Q v = 0 then none else some (rem dag V Q v : ℤ)
  zero : ∀ v, v ∈ st.zero ↔ rem dag V Q v = 0 ∧ rem dag V Q₀ v ≠ 0
  sub : Q₀ ⊆ Q

theorem keys_set_present {d : PyDict ℕ ℤ} (hd : d.keys.Nodup) (k : ℕ) (v : ℤ) : (d.set k v).keys.Nodup :=
  PyDict.keys_set_nodup hd k v

theorem rem_mono {Q Q' : Finset (ℕ × ℕ)} (h : Q ⊆ Q') (v : ℕ) : rem dag V Q' v ≤ rem dag V Q v := by
  unfold rem
  exact Finset.card_le_card (Finset.filter_subset_filter _ (Finset.sdiff_subset_sdiff (le_refl _) h))

theorem child_ok {Q₀ Q : Finset (ℕ × ℕ)} {st : St} (inv : Inv dag V Q₀ Q st) {u c : ℕ}
    (he : (u, c) ∈ edges dag V) (hq : (u, c) ∉ Q) :
    ∃ st', child st c = .ok st' ∧ Inv dag V Q₀ (insert (u, c) Q) st' := by
  have hs := rem_insert_self he hq
  have hg : st.indeg.get? c = some (rem dag V Q c : ℤ) := by rw [inv.indeg, if_neg (by omega)]
  unfold child
  rw [hg]
  simp only []
  have hsub : Q₀ ⊆ insert (u, c) Q := inv.sub.trans (Finset.subset_insert _ _)
  have hc0 : rem dag V Q₀ c ≠ 0 := by have := rem_mono (dag := dag) (V := V) inv.sub c; omega
  by_cases h : (rem dag V Q c : ℤ) - 1 = 0
  · rw [if_pos h]
    have hz : rem dag V (insert (u, c) Q) c = 0 := by omega
    refine ⟨_, rfl, ?_, fun v => ?_, fun v => ?_, hsub⟩
    · simp only []
      rw [PyDict.keys_erase]
      exact (keys_set_present inv.nodup _ _).erase _
    · simp only []
      rw [PyDict.get?_erase (keys_set_present inv.nodup _ _)]
      by_cases hv : v = c
      · subst hv; simp [hz]
      · rw [if_neg (Ne.symm hv), PyDict.get?_set_ne _ _ (Ne.symm hv), inv.indeg, rem_insert_ne hv]
    · simp only [Finset.mem_insert]
      by_cases hv : v = c
      · subst hv; simp [hz, hc0]
      · rw [inv.zero, rem_insert_ne hv]; simp [hv]
  · rw [if_neg h]
    refine ⟨_, rfl, keys_set_present inv.nodup _ _, fun v => ?_, fun v => ?_, hsub⟩
    · simp only []
      by_cases hv : v = c
      · subst hv
        rw [PyDict.get?_set_self, if_neg (by omega)]
        congr 1; omega
      · rw [PyDict.get?_set_ne _ _ (Ne.symm hv), inv.indeg, rem_insert_ne hv]
    · simp only []
      by_cases hv : v = c
      · subst hv
        rw [inv.zero]
        constructor
        · intro h1; omega
        · intro h1; omega
      · rw [inv.zero, rem_insert_ne hv]

theorem children_ok {Q₀ : Finset (ℕ × ℕ)} {u : ℕ} : ∀ (l : List ℕ) (Q : Finset (ℕ × ℕ)) (st : St),
    Inv dag V Q₀ Q st → l.Nodup → (∀ c ∈ l, (u, c) ∈ edges dag V ∧ (u, c) ∉ Q) →
    ∃ st', children st l = .ok st' ∧ Inv dag V Q₀ (Q ∪ (l.map (fun c => (u, c))).toFinset) st'
  | [], Q, st, inv, _, _ => ⟨st, rfl, by simpa using inv⟩
  | c :: l, Q, st, inv, hl, h => by
    obtain ⟨hc, hl⟩ := List.nodup_cons.1 hl
    obtain ⟨st1, e1, inv1⟩ := child_ok inv (h c (by simp)).1 (h c (by simp)).2
    obtain ⟨st2, e2, inv2⟩ := children_ok l _ st1 inv1 hl (fun d hd => ⟨(h d (by simp [hd])).1, by
      simp only [Finset.mem_insert, Prod.mk.injEq, true_and, not_or]
      exact ⟨fun h => hc (h ▸ hd), (h d (by simp [hd])).2⟩⟩)
    refine ⟨st2, by simp only [children, e1, bind, Except.bind]; exact e2, ?_⟩
    convert inv2 using 1
    ext e
    simp

theorem mem_edges {u v : ℕ} (hclosed : ∀ u ∈ V, ∃ ch, dag u = some ch ∧ ch ⊆ V) :
    (u, v) ∈ edges dag V ↔ dagEdge dag V u v := by
  unfold edges
  rw [Finset.mem_filter, Finset.mem_product]
  constructor
  · exact fun h => h.2
  · intro h
    obtain ⟨hu, ch, h1, h2⟩ := h
    obtain ⟨ch', h3, h4⟩ := hclosed u hu
    rw [h1] at h3
    obtain rfl := Option.some.inj h3
    exact ⟨⟨hu, h4 h2⟩, hu, ch, h1, h2⟩

theorem nodes_ok {ord : Finset ℕ → List ℕ} (hord : ∀ s, (ord s).Nodup ∧ ∀ n, n ∈ ord s ↔ n ∈ s)
    (hclosed : ∀ u ∈ V, ∃ ch, dag u = some ch ∧ ch ⊆ V) {Q₀ : Finset (ℕ × ℕ)} :
    ∀ (l : List ℕ) (Q : Finset (ℕ × ℕ)) (st : St),
    Inv dag V Q₀ Q st → l.Nodup → (∀ n ∈ l, n ∈ V) → (∀ n ∈ l, ∀ c, (n, c) ∉ Q) →
    ∃ st', nodes dag ord st l = .ok st' ∧ Inv dag V Q₀ (Q ∪ (edges dag V).filter (fun e => e.1 ∈ l)) st'
  | [], Q, st, inv, _, _, _ => ⟨st, rfl, by simpa using inv⟩
  | n :: l, Q, st, inv, hl, hV, hQ => by
    obtain ⟨hn, hl⟩ := List.nodup_cons.1 hl
    obtain ⟨ch, hch, hsub⟩ := hclosed n (hV n (by simp))
    have hedge : ∀ c, (n, c) ∈ edges dag V ↔ c ∈ ch := by
      intro c
      rw [mem_edges hclosed]
      constructor
      · rintro ⟨-, ch', h1, h2⟩
        rw [hch] at h1
        obtain rfl := Option.some.inj h1
        exact h2
      · intro h; exact ⟨hV n (by simp), ch, hch, h⟩
    obtain ⟨st1, e1, inv1⟩ := children_ok (u := n) (ord ch) Q st inv (hord ch).1 (fun c hc =>
      ⟨(hedge c).2 (((hord ch).2 c).1 hc), hQ n (by simp) c⟩)
    obtain ⟨st2, e2, inv2⟩ := nodes_ok hord hclosed l _ st1 inv1 hl (fun m hm => hV m (by simp [hm])) (fun m hm c => by
      simp only [Finset.mem_union, List.mem_toFinset, List.mem_map, Prod.mk.injEq, not_or, not_exists, not_and]
      exact ⟨hQ m (by simp [hm]) c, fun x _ h => absurd (h ▸ hm) hn⟩)
    refine ⟨st2, by simp only [nodes, hch, e1, bind, Except.bind]; exact e2, ?_⟩
    convert inv2 using 1
    ext ⟨a, b⟩
    simp only [Finset.mem_union, Finset.mem_filter, List.mem_cons, List.mem_toFinset, List.mem_map, Prod.mk.injEq,
      (hord ch).2]
    constructor
    · rintro (h | ⟨h1, rfl | h2⟩)
      · exact Or.inl (Or.inl h)
      · exact Or.inl (Or.inr ⟨b, (hedge b).1 h1, rfl, rfl⟩)
      · exact Or.inr ⟨h1, h2⟩
    · rintro ((h | ⟨x, h1, rfl, rfl⟩) | ⟨h1, h2⟩)
      · exact Or.inl h
      · exact Or.inr ⟨(hedge x).2 h1, Or.inl rfl⟩
      · exact Or.inr ⟨h1, Or.inr h2⟩

/-- Membership in one of the layers. -/
def InLayers (layers : List (Finset ℕ)) (n : ℕ) : Prop := ∃ L ∈ layers, n ∈ L

/-- Edges out of the nodes of the layers. -/
noncomputable def outEdges (dag : Dag) (V : Finset ℕ) (layers : List (Finset ℕ)) : Finset (ℕ × ℕ) :=
  (edges dag V).filter (fun e => InLayers layers e.1)

/-- The invariant of the `while` loop. -/
structure LoopInv (dag : Dag) (V : Finset ℕ) (st : St) (gens : List (Finset ℕ)) : Prop where
  nodup : st.indeg.keys.Nodup
  indeg : ∀ v, st.indeg.get? v = if rem dag V (outEdges dag V gens) v = 0 then none
    else some (rem dag V (outEdges dag V gens) v : ℤ)
  nonempty : ∀ L ∈ gens, L.Nonempty
  sub : ∀ n, InLayers (gens ++ [st.zero]) n → n ∈ V
  parents : ∀ (j : ℕ) L v, (gens ++ [st.zero])[j]? = some L → v ∈ L → ∀ u, dagEdge dag V u v →
    InLayers ((gens ++ [st.zero]).take j) u
  earliest : ∀ (j : ℕ) L v, (gens ++ [st.zero])[j + 1]? = some L → v ∈ L →
    ∃ L' u, (gens ++ [st.zero])[j]? = some L' ∧ u ∈ L' ∧ dagEdge dag V u v
  complete : ∀ v ∈ V, (∀ u, dagEdge dag V u v → InLayers gens u) → InLayers (gens ++ [st.zero]) v
  disjoint : (gens ++ [st.zero]).Pairwise Disjoint

theorem rem_out (hclosed : ∀ u ∈ V, ∃ ch, dag u = some ch ∧ ch ⊆ V) (gens : List (Finset ℕ)) (v : ℕ) :
    rem dag V (outEdges dag V gens) v = 0 ↔ ∀ u, dagEdge dag V u v → InLayers gens u := by
  rw [rem_eq_zero]
  simp only [outEdges, Finset.mem_filter, mem_edges hclosed]
  exact ⟨fun h u hu => (h u hu).2, fun h u hu => ⟨hu, h u hu⟩⟩

theorem inLayers_append {l l' : List (Finset ℕ)} {n : ℕ} : InLayers (l ++ l') n ↔ InLayers l n ∨ InLayers l' n := by
  simp only [InLayers, List.mem_append]
  constructor
  · rintro ⟨L, h | h, hn⟩
    · exact Or.inl ⟨L, h, hn⟩
    · exact Or.inr ⟨L, h, hn⟩
  · rintro (⟨L, h, hn⟩ | ⟨L, h, hn⟩)
    · exact ⟨L, Or.inl h, hn⟩
    · exact ⟨L, Or.inr h, hn⟩

theorem inLayers_singleton {L : Finset ℕ} {n : ℕ} : InLayers [L] n ↔ n ∈ L := by simp [InLayers]

theorem inLayers_take {l : List (Finset ℕ)} {k n : ℕ} (h : InLayers (l.take k) n) : InLayers l n := by
  obtain ⟨L, h1, h2⟩ := h
  exact ⟨L, List.mem_of_mem_take h1, h2⟩

theorem iter_ok {ord : Finset ℕ → List ℕ} (hord : ∀ s, (ord s).Nodup ∧ ∀ n, n ∈ ord s ↔ n ∈ s)
    (hclosed : ∀ u ∈ V, ∃ ch, dag u = some ch ∧ ch ⊆ V) {st : St} {gens : List (Finset ℕ)}
    (inv : LoopInv dag V st gens) (hz : st.zero ≠ ∅) :
    ∃ st', nodes dag ord ⟨st.indeg, ∅⟩ (ord st.zero) = .ok st' ∧ LoopInv dag V st' (gens ++ [st.zero]) ∧
      (st'.zero ≠ ∅ → st'.indeg.length < st.indeg.length) := by
  have notIn : ∀ n ∈ st.zero, ¬ InLayers gens n := by
    rintro n hn ⟨L, hL, hnL⟩
    have := (List.pairwise_append.1 inv.disjoint).2.2 L hL st.zero (by simp)
    exact Finset.disjoint_left.1 this hnL hn
  have inv0 : Inv dag V (outEdges dag V gens) (outEdges dag V gens) ⟨st.indeg, ∅⟩ :=
    ⟨inv.nodup, inv.indeg, fun v => by simp, le_refl _⟩
  obtain ⟨st', e, inv1⟩ := nodes_ok hord hclosed (ord st.zero) _ _ inv0 (hord _).1
    (fun n hn => inv.sub n (inLayers_append.2 (Or.inr (inLayers_singleton.2 (((hord _).2 n).1 hn)))))
    (fun n hn c h => by
      simp only [outEdges, Finset.mem_filter] at h
      exact notIn n (((hord _).2 n).1 hn) h.2)
  have hQ : outEdges dag V gens ∪ (edges dag V).filter (fun e => e.1 ∈ ord st.zero) = outEdges dag V (gens ++ [st.zero]) := by
    ext e
    simp only [outEdges, Finset.mem_union, Finset.mem_filter, inLayers_append, inLayers_singleton, (hord _).2]
    tauto
  rw [hQ] at inv1
  have hzero : ∀ v, v ∈ st'.zero ↔ (∀ u, dagEdge dag V u v → InLayers (gens ++ [st.zero]) u) ∧
      ∃ u, dagEdge dag V u v ∧ ¬ InLayers gens u := by
    intro v
    rw [inv1.zero, rem_out hclosed, ne_eq, rem_out hclosed]
    push Not
    rfl
  have hV : ∀ v ∈ st'.zero, v ∈ V := by
    intro v hv
    obtain ⟨-, u, hu, -⟩ := (hzero v).1 hv
    have := (mem_edges hclosed).2 hu
    simp only [edges, Finset.mem_filter, Finset.mem_product] at this
    exact this.1.2
  refine ⟨st', e, ?_, ?_⟩
  · refine ⟨inv1.nodup, inv1.indeg, ?_, ?_, ?_, ?_, ?_, ?_⟩
    · intro L hL
      rcases List.mem_append.1 hL with h | h
      · exact inv.nonempty L h
      · rw [List.mem_singleton] at h
        subst h
        exact Finset.nonempty_iff_ne_empty.2 hz
    · intro n hn
      rcases inLayers_append.1 hn with h | h
      · exact inv.sub n h
      · exact hV n (inLayers_singleton.1 h)
    · intro j L v hj hv u hu
      by_cases hlt : j < (gens ++ [st.zero]).length
      · rw [List.getElem?_append_left hlt] at hj
        rw [List.take_append_of_le_length hlt.le]
        exact inv.parents j L v hj hv u hu
      · have hj' := hj
        rw [List.getElem?_append_right (not_lt.1 hlt)] at hj
        have hj0 : j - (gens ++ [st.zero]).length = 0 := by
          by_contra hne
          rw [List.getElem?_eq_none (by rw [List.length_singleton]; omega)] at hj
          cases hj
        rw [hj0] at hj
        simp only [List.getElem?_cons_zero, Option.some.injEq] at hj
        subst hj
        have : j = (gens ++ [st.zero]).length := by omega
        rw [this, List.take_left]
        exact ((hzero v).1 hv).1 u hu
    · intro j L v hj hv
      by_cases hlt : j + 1 < (gens ++ [st.zero]).length
      · rw [List.getElem?_append_left hlt] at hj
        rw [List.getElem?_append_left (by omega)]
        exact inv.earliest j L v hj hv
      · rw [List.getElem?_append_right (not_lt.1 hlt)] at hj
        have hj0 : j + 1 - (gens ++ [st.zero]).length = 0 := by
          by_contra hne
          rw [List.getElem?_eq_none (by rw [List.length_singleton]; omega)] at hj
          cases hj
        rw [hj0] at hj
        simp only [List.getElem?_cons_zero, Option.some.injEq] at hj
        subst hj
        have hj1 : j = gens.length := by
          have : (gens ++ [st.zero]).length = gens.length + 1 := by simp
          omega
        obtain ⟨h1, u, hu, hnu⟩ := (hzero v).1 hv
        refine ⟨st.zero, u, ?_, ?_, hu⟩
        · rw [hj1]; simp
        · rcases inLayers_append.1 (h1 u hu) with h | h
          · exact absurd h hnu
          · exact inLayers_singleton.1 h
    · intro v hv h
      by_cases hc : ∀ u, dagEdge dag V u v → InLayers gens u
      · exact inLayers_append.2 (Or.inl (inv.complete v hv hc))
      · push Not at hc
        exact inLayers_append.2 (Or.inr (inLayers_singleton.2 ((hzero v).2 ⟨h, hc⟩)))
    · rw [List.pairwise_append]
      refine ⟨inv.disjoint, by simp, ?_⟩
      intro L hL L' hL'
      rw [List.mem_singleton] at hL'
      subst hL'
      rw [Finset.disjoint_left]
      intro v hv hv'
      obtain ⟨-, u, hu, hnu⟩ := (hzero v).1 hv'
      obtain ⟨j, hj⟩ := List.mem_iff_getElem?.1 hL
      have hlt : j < (gens ++ [st.zero]).length := by
        by_contra h
        rw [List.getElem?_eq_none (not_lt.1 h)] at hj
        cases hj
      have := inv.parents j L v hj hv u hu
      rw [List.take_append_of_le_length (by simp at hlt; omega)] at this
      exact hnu (inLayers_take this)
  · intro hne
    obtain ⟨v, hv⟩ := Finset.nonempty_iff_ne_empty.2 hne
    have hsub : st'.indeg.keys.toFinset ⊆ st.indeg.keys.toFinset := by
      intro x hx
      rw [List.mem_toFinset, ← PyDict.get?_isSome_iff] at hx ⊢
      rw [inv1.indeg] at hx
      rw [inv.indeg]
      have := rem_mono (dag := dag) (V := V) inv1.sub x
      by_cases h : rem dag V (outEdges dag V (gens ++ [st.zero])) x = 0
      · rw [if_pos h] at hx; simp at hx
      · rw [if_neg (by omega)]; rfl
    have hss : st'.indeg.keys.toFinset ⊂ st.indeg.keys.toFinset := by
      refine ⟨hsub, fun hsup => ?_⟩
      obtain ⟨h1, h2⟩ := (inv1.zero v).1 hv
      have : v ∈ st.indeg.keys.toFinset := by
        rw [List.mem_toFinset, ← PyDict.get?_isSome_iff, inv.indeg, if_neg h2]; rfl
      have := hsup this
      rw [List.mem_toFinset, ← PyDict.get?_isSome_iff, inv1.indeg, if_pos h1] at this
      simp at this
    have := Finset.card_lt_card hss
    rw [List.toFinset_card_of_nodup inv1.nodup, List.toFinset_card_of_nodup inv.nodup] at this
    simpa [PyDict.keys] using this

theorem loop_ok {ord : Finset ℕ → List ℕ} (hord : ∀ s, (ord s).Nodup ∧ ∀ n, n ∈ ord s ↔ n ∈ s)
    (hclosed : ∀ u ∈ V, ∃ ch, dag u = some ch ∧ ch ⊆ V) : ∀ (fuel : ℕ) (st : St) (gens : List (Finset ℕ)),
    LoopInv dag V st gens → 1 ≤ fuel → (st.zero ≠ ∅ → st.indeg.length + 2 ≤ fuel) →
    ∃ indeg gens', loop dag ord fuel st gens = .ok (indeg, gens') ∧ LoopInv dag V ⟨indeg, ∅⟩ gens'
  | 0, _, _, _, h, _ => absurd h (by norm_num)
  | fuel + 1, st, gens, inv, _, hf => by
    unfold loop
    by_cases hz : st.zero = ∅
    · rw [if_pos hz]
      refine ⟨_, _, rfl, ?_⟩
      rw [← hz]; exact inv
    · rw [if_neg hz]
      obtain ⟨st', e, inv', hlen⟩ := iter_ok hord hclosed inv hz
      have := hf hz
      obtain ⟨indeg, gens', h1, h2⟩ := loop_ok hord hclosed fuel st' (gens ++ [st.zero]) inv' (by omega)
        (fun h => by have := hlen h; omega)
      exact ⟨indeg, gens', by simp only [e, bind, Except.bind]; exact h1, h2⟩

end TopoGen

open TopoGen in
/-- **C26** On a valid description of a relation on `V`, and for every iteration order of Python sets,
`compute_topological_generations` does not raise; if the relation has no cycle it returns the stratification of `V`
into generations, and if it has one, it returns `None`. -/
theorem C26_topological_generations (dag : TopoGen.Dag) (V : Finset ℕ) (indeg : PyDict ℕ ℤ) (zero : Finset ℕ)
    (h : TopoInput dag V indeg zero) (ord : Finset ℕ → List ℕ)
    (hord : ∀ s, (ord s).Nodup ∧ ∀ n, n ∈ ord s ↔ n ∈ s) :
    ∃ res, computeTopologicalGenerations dag ord indeg zero = .ok res ∧
      (∀ layers, res = some layers → IsGenerations V (dagEdge dag V) layers) ∧
      (res = none ↔ HasCycle (dagEdge dag V)) := by
  have hrem0 : ∀ v, rem dag V (outEdges dag V []) v = (dagParents dag V v).card := by
    intro v
    unfold rem dagParents
    have : outEdges dag V [] = ∅ := by simp [outEdges, InLayers]
    rw [this, Finset.sdiff_empty]
    apply Finset.card_bij (fun e _ => e.1)
    · rintro ⟨a, b⟩ he
      rw [Finset.mem_filter] at he
      obtain ⟨h1, rfl⟩ := he
      rw [mem_edges h.closed] at h1
      rw [Finset.mem_filter]
      exact ⟨h1.1, h1⟩
    · rintro ⟨a, b⟩ ha ⟨a', b'⟩ hb hab
      rw [Finset.mem_filter] at ha hb
      simp only at hab
      obtain ⟨-, rfl⟩ := ha
      obtain ⟨-, h2⟩ := hb
      rw [Prod.mk.injEq]; exact ⟨hab, h2.symm⟩
    · intro u hu
      rw [Finset.mem_filter] at hu
      exact ⟨(u, v), Finset.mem_filter.2 ⟨(mem_edges h.closed).2 hu.2, rfl⟩, rfl⟩
  have hpar : ∀ v, dagParents dag V v = ∅ ↔ ∀ u, ¬ dagEdge dag V u v := by
    intro v
    unfold dagParents
    rw [Finset.filter_eq_empty_iff]
    exact ⟨fun h u hu => h hu.1 hu, fun h u _ => h u⟩
  have inv0 : LoopInv dag V ⟨indeg, zero⟩ [] := by
    refine ⟨h.nodup, fun v => ?_, by simp, ?_, ?_, ?_, ?_, by simp⟩
    · simp only []
      rw [hrem0]
      by_cases hc : (dagParents dag V v).card = 0
      · rw [if_pos hc]
        cases hg : indeg.get? v with
        | none => rfl
        | some c =>
          obtain ⟨-, h1, -⟩ := (h.indegree v c).1 hg
          exact absurd (Finset.card_eq_zero.1 hc) h1
      · rw [if_neg hc]
        rw [h.indegree]
        refine ⟨?_, fun h => hc (by rw [h]; rfl), rfl⟩
        obtain ⟨u, hu⟩ := Finset.card_pos.1 (Nat.pos_of_ne_zero hc)
        rw [dagParents, Finset.mem_filter] at hu
        have := (mem_edges h.closed).2 hu.2
        simp only [edges, Finset.mem_filter, Finset.mem_product] at this
        exact this.1.2
    · intro n hn
      rw [List.nil_append, inLayers_singleton] at hn
      exact ((h.zero n).1 hn).1
    · intro j L v hj hv u hu
      cases j with
      | zero =>
        simp only [List.nil_append, List.getElem?_cons_zero, Option.some.injEq] at hj
        subst hj
        exact absurd hu ((hpar v).1 ((h.zero v).1 hv).2 u)
      | succ j => simp at hj
    · intro j L v hj; simp at hj
    · intro v hv hu
      rw [List.nil_append, inLayers_singleton]
      refine (h.zero v).2 ⟨hv, (hpar v).2 (fun u he => ?_)⟩
      obtain ⟨L, hL, -⟩ := hu u he
      simp at hL
  obtain ⟨indeg', gens, e, inv⟩ := loop_ok hord h.closed (indeg.length + 2) ⟨indeg, zero⟩ [] inv0 (by omega)
    (fun _ => le_refl _)
  have noEmpty : ∀ n, InLayers (gens ++ [∅]) n ↔ InLayers gens n := by
    intro n; rw [inLayers_append, inLayers_singleton]; simp
  have hgen : indeg' = [] → IsGenerations V (dagEdge dag V) gens := by
    intro hnil
    have hall : ∀ v, ∀ u, dagEdge dag V u v → InLayers gens u := by
      intro v
      rw [← rem_out h.closed]
      have := inv.indeg v
      simp only [hnil, PyDict.get?_nil] at this
      by_contra hne
      rw [if_neg hne] at this
      cases this
    have lift : ∀ (j : ℕ) (L : Finset ℕ), gens[j]? = some L → (gens ++ [∅])[j]? = some L := by
      intro j L hj
      have hlt : j < gens.length := by
        by_contra hh; rw [List.getElem?_eq_none (not_lt.1 hh)] at hj; cases hj
      rw [List.getElem?_append_left hlt, hj]
    refine ⟨inv.nonempty, fun n => ⟨fun hn => (noEmpty n).1 (inv.complete n hn (hall n)), fun hn => inv.sub n ((noEmpty n).2 hn)⟩,
      (List.pairwise_append.1 inv.disjoint).1, ?_, ?_⟩
    · intro u v hu huv i j Li Lj hi hj hui hvj
      have hp := inv.parents j Lj v (lift j Lj hj) hvj u huv
      have hjlt : j < gens.length := by
        by_contra hh; rw [List.getElem?_eq_none (not_lt.1 hh)] at hj; cases hj
      rw [List.take_append_of_le_length hjlt.le] at hp
      obtain ⟨L, hL, huL⟩ := hp
      obtain ⟨k, hk⟩ := List.mem_iff_getElem?.1 hL
      rw [List.getElem?_take] at hk
      by_cases hkj : k < j
      · rw [if_pos hkj] at hk
        have hik : i = k := by
          by_contra hne
          have hdis := (List.pairwise_append.1 inv.disjoint).1
          rw [List.pairwise_iff_getElem] at hdis
          obtain ⟨hi', hi2⟩ := List.getElem?_eq_some_iff.1 hi
          obtain ⟨hk', hk2⟩ := List.getElem?_eq_some_iff.1 hk
          rcases lt_or_gt_of_ne hne with hlt | hlt
          · have := hdis i k hi' hk' hlt
            rw [hi2, hk2] at this
            exact Finset.disjoint_left.1 this hui huL
          · have := hdis k i hk' hi' hlt
            rw [hi2, hk2] at this
            exact Finset.disjoint_left.1 this huL hui
        omega
      · rw [if_neg hkj] at hk; cases hk
    · intro j L v hj hv
      obtain ⟨L', u, h1, h2, h3⟩ := inv.earliest j L v (lift _ _ hj) hv
      refine ⟨L', u, ?_, h2, h3⟩
      have hlt : j + 1 < gens.length := by
        by_contra hh; rw [List.getElem?_eq_none (not_lt.1 hh)] at hj; cases hj
      rw [List.getElem?_append_left (by omega)] at h1
      exact h1
  have hcyc : indeg' ≠ [] → HasCycle (dagEdge dag V) := by
    intro hne
    obtain ⟨⟨v₀, c₀⟩, hv₀⟩ := List.exists_mem_of_ne_nil indeg' hne
    have hv₀' : rem dag V (outEdges dag V gens) v₀ ≠ 0 := by
      have h1 := PyDict.get?_of_mem inv.nodup hv₀
      rw [inv.indeg] at h1
      intro h0
      rw [if_pos h0] at h1
      cases h1
    have hpred : ∀ v, rem dag V (outEdges dag V gens) v ≠ 0 → ∃ u, dagEdge dag V u v ∧ rem dag V (outEdges dag V gens) u ≠ 0 := by
      intro v hv
      rw [ne_eq, rem_out h.closed] at hv
      push Not at hv
      obtain ⟨u, hu, hnu⟩ := hv
      refine ⟨u, hu, ?_⟩
      rw [ne_eq, rem_out h.closed]
      intro hall
      exact hnu ((noEmpty u).1 (inv.complete u hu.1 hall))
    by_contra hcon
    have hVof : ∀ v, rem dag V (outEdges dag V gens) v ≠ 0 → v ∈ V := by
      intro v hv
      obtain ⟨u, hu, -⟩ := hpred v hv
      have := (mem_edges h.closed).2 hu
      simp only [edges, Finset.mem_filter, Finset.mem_product] at this
      exact this.1.2
    let W := {v : V // rem dag V (outEdges dag V gens) v ≠ 0}
    let r : W → W → Prop := fun a b => Relation.TransGen (dagEdge dag V) a.1.1 b.1.1
    have : IsTrans W r := ⟨fun a b c h1 h2 => h1.trans h2⟩
    have : Std.Irrefl r := ⟨fun a ha => hcon ⟨_, ha⟩⟩
    have wf : WellFounded r := Finite.wellFounded_of_trans_of_irrefl r
    obtain ⟨m, -, hm⟩ := wf.has_min Set.univ ⟨⟨⟨v₀, hVof v₀ hv₀'⟩, hv₀'⟩, trivial⟩
    obtain ⟨u, hu, hu'⟩ := hpred m.1.1 m.2
    exact hm ⟨⟨u, hu.1⟩, hu'⟩ trivial (Relation.TransGen.single hu)
  have hnocyc : ∀ layers, IsGenerations V (dagEdge dag V) layers → ¬ HasCycle (dagEdge dag V) := by
    rintro layers hg ⟨n, hn⟩
    have hin : ∀ u v, dagEdge dag V u v → v ∈ V := by
      intro u v hu
      have := (mem_edges h.closed).2 hu
      simp only [edges, Finset.mem_filter, Finset.mem_product] at this
      exact this.1.2
    have key : ∀ a b, Relation.TransGen (dagEdge dag V) a b → b ∈ V ∧ ∀ (i j : ℕ) (Li Lj : Finset ℕ), layers[i]? = some Li →
        layers[j]? = some Lj → a ∈ Li → b ∈ Lj → i < j := by
      intro a b hab
      induction hab with
      | single he => exact ⟨hin _ _ he, fun i j Li Lj hi hj ha hb => hg.edges _ _ he.1 he i j Li Lj hi hj ha hb⟩
      | @tail b c _ he ih =>
        refine ⟨hin _ _ he, fun i j Li Lj hi hj ha hc => ?_⟩
        obtain ⟨Lk, hLk, hbk⟩ := (hg.cover b).1 he.1
        obtain ⟨k, hk⟩ := List.mem_iff_getElem?.1 hLk
        have h1 := ih.2 i k Li Lk hi hk ha hbk
        have h2 := hg.edges b c he.1 he k j Lk Lj hk hj hbk hc
        omega
    obtain ⟨hnV, hk⟩ := key n n hn
    obtain ⟨L, hL, hnL⟩ := (hg.cover n).1 hnV
    obtain ⟨k, hk'⟩ := List.mem_iff_getElem?.1 hL
    exact lt_irrefl k (hk k k L L hk' hk' hnL hnL)
  by_cases hnil : indeg' = []
  · refine ⟨some gens, ?_, fun layers hl => ?_, ?_⟩
    · unfold computeTopologicalGenerations
      simp only [e, bind, Except.bind, hnil]
      rfl
    · obtain rfl := Option.some.inj hl; exact hgen hnil
    · simp only [reduceCtorEq, false_iff]
      exact hnocyc gens (hgen hnil)
  · refine ⟨none, ?_, fun layers hl => (by cases hl), ?_⟩
    · unfold computeTopologicalGenerations
      simp only [e, bind, Except.bind]
      rw [if_pos hnil]; rfl
    · simp only [true_iff]; exact hcyc hnil

/-- Non-trivial instance: a diamond with a tail, `0 → 1, 2`, `1 → 3`, `2 → 3`, `3 → 4`, and an isolated node 5; and
the same with the edge `4 → 1` added. -/
def exampleDag : TopoGen.Dag := fun n =>
  match n with
  | 0 => some {1, 2}
  | 1 => some {3}
  | 2 => some {3}
  | 3 => some {4}
  | _ => some ∅

example : (computeTopologicalGenerations exampleDag (fun s => (List.range 6).filter (· ∈ s)) [(1, 1), (2, 1), (3, 2), (4, 1)]
    {0, 5}).map (Option.map (List.map fun L => (List.range 6).filter (· ∈ L))) = .ok (some [[0, 5], [1, 2], [3], [4]]) := by
  decide

example : computeTopologicalGenerations (fun n => if n = 4 then some {1} else exampleDag n) (fun s => (List.range 6).filter (· ∈ s))
    [(1, 2), (2, 1), (3, 2), (4, 1)] {0, 5} = .ok none := by decide

example : TopoInput exampleDag {0, 1, 2, 3, 4, 5} [(1, 1), (2, 1), (3, 2), (4, 1)] {0, 5} := by
  have hp : ∀ v, dagParents exampleDag {0, 1, 2, 3, 4, 5} v =
      if v = 1 then {0} else if v = 2 then {0} else if v = 3 then {1, 2} else if v = 4 then {3} else ∅ := by
    intro v
    ext u
    simp only [dagParents, dagEdge, Finset.mem_filter, Finset.mem_insert, Finset.mem_singleton]
    constructor
    · rintro ⟨h, -, ch, h1, h2⟩
      rcases h with rfl | rfl | rfl | rfl | rfl | rfl <;>
        simp only [exampleDag, Option.some.injEq] at h1 <;> subst h1 <;> simp at h2 <;> try (rcases h2 with rfl | rfl <;> simp)
      all_goals (subst h2; simp)
    · intro h
      split_ifs at h with h1 h2 h3 h4 <;> simp at h
      · subst h; exact ⟨by simp, by simp, _, rfl, by simp [h1]⟩
      · subst h; exact ⟨by simp, by simp, _, rfl, by simp [h2]⟩
      · rcases h with rfl | rfl
        · exact ⟨by simp, by simp, _, rfl, by simp [h3]⟩
        · exact ⟨by simp, by simp, _, rfl, by simp [h3]⟩
      · subst h; exact ⟨by simp, by simp, _, rfl, by simp [h4]⟩
  refine ⟨?_, by decide, ?_, ?_⟩
  · intro u hu
    simp only [Finset.mem_insert, Finset.mem_singleton] at hu
    rcases hu with rfl | rfl | rfl | rfl | rfl | rfl <;> exact ⟨_, rfl, by decide⟩
  · intro v c
    rw [hp]
    simp only [PyDict.get?]
    split_ifs <;> subst_vars <;> simp_all [eq_comm, Finset.ext_iff]
    exact fun _ => ⟨1, by simp⟩
  · intro v
    rw [hp]
    split_ifs <;> subst_vars <;> simp_all

end Graphix
