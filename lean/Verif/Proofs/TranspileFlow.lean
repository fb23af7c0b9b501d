import Verif.Proofs.Transpile

/-!
# The open graph built by `transpile_to_causalflow` has a causal flow
-/

namespace Graphix

open Function

namespace JInv

variable {w : ℕ} {act : Finset ℕ} {σ : ℕ → ℕ} {ms : List (ℕ × Axis)} {st : JczState}
  {eord : List (ℕ × ℕ) → List (ℕ × ℕ)}

theorem indices_eq (h : JInv w act σ ms st) :
    st.indices.filterMap id = ((List.range w).filter (· ∈ act)).map σ := by
  have h1 : st.indices = (List.range w).map fun q => if q ∈ act then some (σ q) else none := by
    apply List.ext_getElem?
    intro q
    by_cases hq : q < w
    · rw [h.idx q hq]; simp [hq]
    · rw [List.getElem?_eq_none (by rw [h.len]; omega), List.getElem?_eq_none (by simp; omega)]
  rw [h1, List.filterMap_map]
  generalize List.range w = l
  induction l with
  | nil => rfl
  | cons q l ih =>
    by_cases hq : q ∈ act
    · rw [List.filterMap_cons_some (b := σ q) (by simp [hq]), ih, List.filter_cons_of_pos (by simpa using hq), List.map_cons]
    · rw [List.filterMap_cons_none (by simp [hq]), ih, List.filter_cons_of_neg (by simpa using hq)]

theorem outputs_eq (h : JInv w act σ ms st) :
    (st.openGraph w eord).outputs = ((List.range w).filter (· ∈ act) ++ ms.map Prod.fst).map σ := by
  simp only [JczState.openGraph, h.indices_eq, List.map_append, h.cls, PyDict.keys, List.map_map]
  rfl

theorem mem_outputs (h : JInv w act σ ms st) (n : ℕ) : n ∈ (st.openGraph w eord).outputs ↔ ∃ q < w, σ q = n := by
  rw [h.outputs_eq, List.mem_map]
  constructor
  · rintro ⟨q, hq, rfl⟩
    refine ⟨q, ?_, rfl⟩
    rcases List.mem_append.1 hq with hq | hq
    · simpa using (List.mem_filter.1 hq).1
    · exact ((h.ms_mem q).1 hq).1
  · rintro ⟨q, hq, rfl⟩
    refine ⟨q, ?_, rfl⟩
    by_cases ha : q ∈ act
    · exact List.mem_append_left _ (List.mem_filter.2 ⟨by simpa using hq, by simpa using ha⟩)
    · exact List.mem_append_right _ ((h.ms_mem q).2 ⟨hq, ha⟩)

theorem outputs_nodup (h : JInv w act σ ms st) : (st.openGraph w eord).outputs.Nodup := by
  rw [h.outputs_eq]
  refine List.Nodup.map_on ?_ ?_
  · intro q hq q' hq' he
    have lt : ∀ q, q ∈ (List.range w).filter (· ∈ act) ++ ms.map Prod.fst → q < w := by
      intro q hq
      rcases List.mem_append.1 hq with hq | hq
      · simpa using (List.mem_filter.1 hq).1
      · exact ((h.ms_mem q).1 hq).1
    exact h.inj q (lt q hq) q' (lt q' hq') he
  · rw [List.nodup_append]
    refine ⟨List.nodup_range.filter _, h.ms_nodup, ?_⟩
    rintro a ha b hb rfl
    exact ((h.ms_mem a).1 hb).2 (by simpa using (List.mem_filter.1 ha).2)

theorem adj (he : EdgeOrd.Valid eord) (u v : ℕ) : (st.openGraph w eord).Adj u v ↔ hasEdge st.edges u v := (he st.edges).1 u v

theorem og_valid (h : JInv w act σ ms st) (he : EdgeOrd.Valid eord) : (st.openGraph w eord).Valid where
  post := by
    have hn : (st.openGraph w eord).nodes = Finset.range st.nNodes := h.nodes
    have hout : (st.openGraph w eord).outputs.toFinset ⊆ Finset.range st.nNodes := by
      intro n hn
      rw [List.mem_toFinset, h.mem_outputs] at hn
      obtain ⟨q, hq, rfl⟩ := hn
      simpa using h.lt q hq
    unfold OpenGraph.postInit
    simp only [hn]
    rw [if_neg, if_neg, if_neg, if_neg, if_neg, if_neg, if_neg, if_neg]
    · simp [JczState.openGraph, PyDict.keys]
    · simp only [not_not]; exact List.toFinset_card_of_nodup h.outputs_nodup
    · simp only [not_not]; exact List.toFinset_card_of_nodup List.nodup_range
    · simp only [ne_eq, not_not]
      ext n
      rw [Finset.mem_sdiff, List.mem_toFinset, h.mem_outputs, List.mem_toFinset]
      change _ ↔ n ∈ st.measurements.keys
      rw [h.meas, Finset.mem_range]
      push Not
      rfl
    · simp only [ne_eq, not_not]
      ext n
      rw [Finset.mem_inter, List.mem_toFinset, h.mem_outputs, List.mem_toFinset]
      change _ ∧ n ∈ st.measurements.keys ↔ _
      rw [h.meas]
      simp only [Finset.notMem_empty, iff_false, not_and]
      rintro ⟨q, hq, rfl⟩ -
      push Not
      exact ⟨q, hq, rfl⟩
    · simp only [not_not]; exact hout
    · simp only [not_not]
      intro n hn
      simp only [JczState.openGraph, List.mem_toFinset, List.mem_range] at hn
      have := h.wle
      simp; omega
    · simp only [not_not]
      intro n hn
      rw [List.mem_toFinset] at hn
      simpa using ((h.meas n).1 hn).1
  edge_mem := by
    intro u v huv
    have : hasEdge st.edges u v := ((he st.edges).1 u v).1 (Or.inl huv)
    obtain ⟨h1, h2, -⟩ := h.edge_lt this
    change u ∈ st.nodes ∧ v ∈ st.nodes
    rw [h.nodes]; simp [h1, h2]
  edge_once := (he st.edges).2 h.eonce
  meas_keys := h.mknd
  clif_keys := by simp [JczState.openGraph, PyDict.keys]

theorem og_loop (h : JInv w act σ ms st) (he : EdgeOrd.Valid eord) : ∀ e ∈ (st.openGraph w eord).edges, e.1 ≠ e.2 := by
  intro e hm
  have : hasEdge st.edges e.1 e.2 := ((he st.edges).1 e.1 e.2).1 (Or.inl hm)
  exact (h.edge_lt this).2.2

end JInv

/-- The loop over the X corrections. -/
theorem zCorrections_spec {og : OpenGraph} (d : PyDict ℕ (Finset ℕ)) (hd : ∀ kv ∈ d, kv.2 ⊆ og.nodes) (hk : d.keys.Nodup) :
    ∀ z0 : PyDict ℕ (Finset ℕ), z0.keys.Nodup → (∀ k ∈ d.keys, k ∉ z0.keys) → ∃ z, zCorrections og d z0 = .ok z ∧ z.keys.Nodup ∧
      (∀ u v, InD z u v ↔ InD z0 u v ∨ ∃ s, d.get? u = some s ∧ v ≠ u ∧ ∃ n ∈ s, og.Adj n v) ∧
      ∀ k ∈ z.keys, k ∈ z0.keys ∨ k ∈ d.keys := by
  induction d with
  | nil =>
    intro z0 hz0 _
    refine ⟨z0, rfl, hz0, fun u v => ?_, fun k hk => Or.inl hk⟩
    simp
  | cons kv d ih =>
    obtain ⟨k, s⟩ := kv
    intro z0 hz0 hdis
    have hk' : k ∉ PyDict.keys d ∧ (PyDict.keys d).Nodup := by simpa [PyDict.keys] using hk
    have hkz : k ∉ z0.keys := hdis k (by simp [PyDict.keys])
    have hs : s ⊆ og.nodes := hd (k, s) (by simp)
    have hmem : ∀ v, v ∈ s.biUnion og.nbrs \ {k} ↔ v ≠ k ∧ ∃ n ∈ s, og.Adj n v := by
      intro v
      simp only [Finset.mem_sdiff, Finset.mem_biUnion, og.mem_nbrs, Finset.mem_singleton]
      tauto
    obtain ⟨z, h1, h2, h3, h4⟩ := ih (fun kv h => hd kv (by simp [h])) hk'.2
      (if s.biUnion og.nbrs \ {k} ≠ ∅ then z0.set k (s.biUnion og.nbrs \ {k}) else z0)
      (by split; exact PyDict.keys_set_nodup hz0 _ _; exact hz0)
      (by
        intro k' hk'' hm
        have h0 := hdis k' (by simp only [PyDict.keys, List.map_cons, List.mem_cons]; exact Or.inr hk'')
        split at hm
        · rw [PyDict.mem_keys_set] at hm
          rcases hm with rfl | hm
          · exact hk'.1 hk''
          · exact h0 hm
        · exact h0 hm)
    refine ⟨z, ?_, h2, ?_, ?_⟩
    · unfold zCorrections
      simp only [OpenGraph.neighbors, if_pos hs, bind, Except.bind]
      exact h1
    · intro u v
      rw [h3]
      have hz' : InD (if s.biUnion og.nbrs \ {k} ≠ ∅ then z0.set k (s.biUnion og.nbrs \ {k}) else z0) u v ↔
          InD z0 u v ∨ (u = k ∧ v ≠ u ∧ ∃ n ∈ s, og.Adj n v) := by
        by_cases hne : s.biUnion og.nbrs \ {k} = ∅
        · rw [if_neg (not_not.2 hne)]
          constructor
          · exact Or.inl
          · rintro (h | ⟨rfl, h⟩)
            · exact h
            · have := (hmem v).2 h; rw [hne] at this; simp at this
        · rw [if_pos hne]
          unfold InD
          simp only [PyDict.get?_set]
          by_cases hu : k = u
          · subst hu
            have h0 : z0.get? k = none := (PyDict.get?_eq_none_iff _ _).2 hkz
            simp only [if_true, h0, Option.some.injEq, reduceCtorEq, false_and, exists_false, false_or, true_and]
            rw [← hmem]
            constructor
            · rintro ⟨t, rfl, ht⟩; exact ht
            · intro ht; exact ⟨_, rfl, ht⟩
          · simp [hu, Ne.symm hu]
      rw [hz', PyDict.get?_cons]
      by_cases hu : k = u
      · subst hu
        have h0 : PyDict.get? d k = none := (PyDict.get?_eq_none_iff _ _).2 hk'.1
        simp [h0]
      · simp only [Ne.symm hu, false_and, or_false, hu, if_false]
    · intro k' hk''
      simp only [PyDict.keys, List.map_cons, List.mem_cons]
      rcases h4 k' hk'' with h5 | h5
      · split at h5
        · rw [PyDict.mem_keys_set] at h5
          rcases h5 with rfl | h5
          · exact Or.inr (Or.inl rfl)
          · exact Or.inl h5
        · exact Or.inl h5
      · exact Or.inr (Or.inr h5)

theorem no_cycle_of_rank {R : ℕ → ℕ → Prop} (rk : ℕ → ℕ) (h : ∀ u v, R u v → rk u < rk v) : ¬ HasCycle R := by
  rintro ⟨n, hn⟩
  have : ∀ {a b}, Relation.TransGen R a b → rk a < rk b := by
    intro a b hab
    induction hab with
    | single h1 => exact h _ _ h1
    | tail _ h1 ih => exact ih.trans (h _ _ h1)
  exact lt_irrefl _ (this hn)

/-- The flow built from the final state of the loop is a causal flow. -/
theorem JInv.flow {w : ℕ} {act : Finset ℕ} {σ : ℕ → ℕ} {ms : List (ℕ × Axis)} {st : JczState}
    {eord : List (ℕ × ℕ) → List (ℕ × ℕ)} (h : JInv w act σ ms st) (he : EdgeOrd.Valid eord) {ord : SetOrd} (hord : ord.Valid) :
    ∃ z layers, zCorrections (st.openGraph w eord) st.x [] = .ok z ∧
      correctionsToPartialOrderLayers (st.openGraph w eord) ord st.x z = .ok layers ∧
      IsCausalFlow ⟨st.openGraph w eord, st.x, layers⟩ := by
  have hv := h.og_valid he
  have hnode : (st.openGraph w eord).nodes = Finset.range st.nNodes := h.nodes
  have hxk : st.x.keys.Nodup := by rw [h.xk]; exact h.mknd
  have hkey : ∀ u, u ∈ st.x.keys ↔ u < st.nNodes ∧ u ∉ (st.openGraph w eord).outputs := by
    intro u
    rw [h.xk, h.meas, h.mem_outputs]
    push Not
    rfl
  obtain ⟨z, hz1, hz2, hz3, hz4⟩ := zCorrections_spec (og := st.openGraph w eord) st.x (by
    intro kv hkv
    obtain ⟨n, h1, -, -, h4, -⟩ := h.xs kv.1 kv.2 (PyDict.get?_of_mem hxk hkv)
    rw [h1, hnode]; simpa using h4) hxk [] (by simp [PyDict.keys]) (by simp [PyDict.keys])
  have hcor : ∀ u v, Corrects st.x z u v → ∃ n, st.x.get? u = some {n} ∧ (v = n ∨ (v ≠ u ∧ hasEdge st.edges n v)) := by
    intro u v hc
    rcases hc with ⟨s, hs, hvs⟩ | hc
    · obtain ⟨n, rfl, -⟩ := h.xs u s hs
      exact ⟨n, hs, Or.inl (by simpa using hvs)⟩
    · rcases (hz3 u v).1 hc with ⟨s, hs, -⟩ | ⟨s, hs, hne, n', hn', hadj⟩
      · cases hs
      · obtain ⟨n, rfl, -⟩ := h.xs u s hs
        rw [Finset.mem_singleton] at hn'; subst hn'
        exact ⟨n', hs, Or.inr ⟨hne, (JInv.adj he _ _).1 hadj⟩⟩
  let rk : ℕ → ℕ := fun u => match st.x.get? u with | some s => s.sum id | none => st.nNodes
  have hrk : ∀ u n, st.x.get? u = some {n} → rk u = n := by intro u n hu; simp [rk, hu]
  have hlater : ∀ u n, st.x.get? u = some {n} → ∀ v, v = n ∨ (v ≠ u ∧ hasEdge st.edges n v) → rk u < rk v := by
    intro u n hu v hvn
    rw [hrk u n hu]
    obtain ⟨n', hn', -, h3, h4, h5⟩ := h.xs u _ hu
    rw [Finset.singleton_inj] at hn'; subst hn'
    cases hx : st.x.get? v with
    | none => simp only [rk, hx]; exact h4
    | some s =>
      obtain ⟨m, rfl, -, hm2, -, -⟩ := h.xs v s hx
      rw [hrk v m hx]
      rcases hvn with rfl | ⟨hne, hed⟩
      · exact hm2
      · have h6 := h.etime v n m (JInv.hasEdge_symm.1 hed) hx
        rcases h6.lt_or_eq with h7 | rfl
        · exact h7
        · exact absurd (h.xinj v u _ hx hu) hne
  have hacyc : ¬ HasCycle (Corrects st.x z) := no_cycle_of_rank rk fun u v hc => by
    obtain ⟨n, h1, h2⟩ := hcor u v hc
    exact hlater u n h1 v h2
  obtain ⟨hgood, -⟩ := correctionsToPartialOrderLayers_spec hv hord hxk hz2 (by
    intro u hu
    have : u ∈ st.x.keys := by
      rcases hu with hu | hu
      · exact hu
      · rcases hz4 u hu with h' | h'
        · simp [PyDict.keys] at h'
        · exact h'
    obtain ⟨h1, h2⟩ := (hkey u).1 this
    exact ⟨by rw [hnode]; simpa using h1, h2⟩)
  obtain ⟨layers, hl1, hl2, hl3⟩ := hgood ⟨by
    intro u v hc
    obtain ⟨n, h1, h2⟩ := hcor u v hc
    rw [hnode, Finset.mem_range]
    rcases h2 with rfl | ⟨-, h2⟩
    · obtain ⟨n', hn', -, -, h4, -⟩ := h.xs u _ h1
      rw [Finset.singleton_inj] at hn'; subst hn'; exact h4
    · exact (h.edge_lt h2).2.1, hacyc⟩
  refine ⟨z, layers, hz1, hl1, ⟨?_, ?_, hl2⟩, ?_, ?_⟩
  · intro u
    change (∃ s, st.x.get? u = some s) ↔ _
    rw [← Option.isSome_iff_exists, PyDict.get?_isSome_iff, hkey, hnode, Finset.mem_range]
  · intro u s v hs hvs
    obtain ⟨n, rfl, hwn, -, hn, -⟩ := h.xs u s hs
    rw [Finset.mem_singleton] at hvs; subst hvs
    refine ⟨by rw [hnode]; simpa using hn, ?_⟩
    simp only [JczState.openGraph, List.mem_range]; omega
  · intro u hu hu'
    have h1 : u ∈ st.measurements.keys := by
      rw [← h.xk, hkey]; exact ⟨by rw [hnode] at hu; simpa using hu, hu'⟩
    obtain ⟨m, hm⟩ := Option.isSome_iff_exists.1 ((PyDict.get?_isSome_iff _ _).2 h1)
    obtain ⟨θ, rfl⟩ := h.mxy u m hm
    exact ⟨_, hm, rfl⟩
  · intro u s hs
    obtain ⟨n, rfl, -, -, hn, hed⟩ := h.xs u s hs
    refine ⟨n, rfl, (JInv.adj he _ _).2 hed, hl3 u n (Or.inl ⟨_, hs, by simp⟩), ?_⟩
    intro v hadj hne _
    have hed' := (JInv.adj he _ _).1 hadj
    refine hl3 u v (Or.inr ((hz3 u v).2 (Or.inr ⟨_, hs, hne, n, by simp, (JInv.adj he _ _).2 (JInv.hasEdge_symm.1 hed')⟩)))

end Graphix
