import Verif.Model.FindCflow
import Verif.Props.FlowCheck

/-!
# C27: the search for a causal flow
-/

namespace Graphix

theorem sort_singleton_iff {s : Finset ℕ} {q : ℕ} : s.sort (· ≤ ·) = [q] ↔ s = {q} := by
  constructor
  · intro h
    ext n
    rw [← Finset.mem_sort (r := (· ≤ ·)), h]; simp
  · rintro rfl; simp

section Round

variable {og : OpenGraph} {C : Finset ℕ}

/-- The only neighbour of `p` that is not yet corrected is `q`. -/
def OnlyNbr (og : OpenGraph) (C : Finset ℕ) (p q : ℕ) : Prop := og.nbrs p ∩ (og.nodes \ C) = {q}

theorem cflowVisit_eq {r : CflowRound} {p : ℕ} (hp : p ∈ og.nodes) :
    (∃ q, OnlyNbr og C p q ∧ cflowVisit og C r p = .ok ⟨r.cf.set q {p}, insert q r.currLayer, insert p r.correctorNew⟩) ∨
    ((∀ q, ¬ OnlyNbr og C p q) ∧ cflowVisit og C r p = .ok r) := by
  have hn : og.neighbors {p} = .ok (og.nbrs p) := by simp [OpenGraph.neighbors, hp]
  unfold cflowVisit
  rw [hn]
  simp only [bind, Except.bind, pure, Except.pure]
  split
  · rename_i q hq
    exact Or.inl ⟨q, sort_singleton_iff.1 hq, rfl⟩
  · rename_i hq
    exact Or.inr ⟨fun q h => hq q (sort_singleton_iff.2 h), rfl⟩

theorem cflowRound_spec (l : List ℕ) : ∀ (r : CflowRound), (∀ p ∈ l, p ∈ og.nodes) →
    ∃ r', cflowRound og C l r = .ok r' ∧
      (∀ q, q ∈ r'.currLayer ↔ q ∈ r.currLayer ∨ ∃ p ∈ l, OnlyNbr og C p q) ∧
      (∀ p, p ∈ r'.correctorNew ↔ p ∈ r.correctorNew ∨ p ∈ l ∧ ∃ q, OnlyNbr og C p q) ∧
      (∀ u, (∃ p ∈ l, OnlyNbr og C p u ∧ r'.cf.get? u = some {p}) ∨
        ((∀ p ∈ l, ¬ OnlyNbr og C p u) ∧ r'.cf.get? u = r.cf.get? u)) ∧
      (r.cf.keys.Nodup → r'.cf.keys.Nodup) := by
  induction l with
  | nil => intro r _; exact ⟨r, rfl, by simp, by simp, by simp, id⟩
  | cons p l ih =>
    intro r hl
    rcases cflowVisit_eq (C := C) (r := r) (hl p (by simp)) with ⟨q, hq, hv⟩ | ⟨hq, hv⟩
    · obtain ⟨r', h1, h2, h3, h4, h5⟩ := ih ⟨r.cf.set q {p}, insert q r.currLayer, insert p r.correctorNew⟩
        (fun p' hp' => hl p' (by simp [hp']))
      have huniq : ∀ q', OnlyNbr og C p q' → q' = q := by
        intro q' h'
        unfold OnlyNbr at hq h'
        rw [hq] at h'
        exact (Finset.singleton_injective h').symm
      refine ⟨r', by rw [cflowRound, hv]; exact h1, ?_, ?_, ?_, ?_⟩
      · intro q'
        rw [h2]
        simp only [Finset.mem_insert, List.mem_cons, exists_eq_or_imp]
        constructor
        · rintro ((rfl | h) | h)
          · exact Or.inr (Or.inl hq)
          · exact Or.inl h
          · exact Or.inr (Or.inr h)
        · rintro (h | h | h)
          · exact Or.inl (Or.inr h)
          · exact Or.inl (Or.inl (huniq _ h))
          · exact Or.inr h
      · intro p'
        rw [h3]
        simp only [Finset.mem_insert, List.mem_cons]
        constructor
        · rintro ((rfl | h) | h)
          · exact Or.inr ⟨Or.inl rfl, q, hq⟩
          · exact Or.inl h
          · exact Or.inr ⟨Or.inr h.1, h.2⟩
        · rintro (h | ⟨rfl | h, h'⟩)
          · exact Or.inl (Or.inr h)
          · exact Or.inl (Or.inl rfl)
          · exact Or.inr ⟨h, h'⟩
      · intro u
        rcases h4 u with ⟨p', hp', h6, h7⟩ | ⟨h6, h7⟩
        · exact Or.inl ⟨p', by simp [hp'], h6, h7⟩
        · by_cases hu : u = q
          · subst hu
            exact Or.inl ⟨p, by simp, hq, by rw [h7, PyDict.get?_set_self]⟩
          · refine Or.inr ⟨?_, by rw [h7, PyDict.get?_set_ne _ _ (fun h => hu h.symm)]⟩
            intro p' hp'
            rcases List.mem_cons.1 hp' with rfl | hp'
            · exact fun h => hu (huniq u h)
            · exact h6 p' hp'
      · intro hn; exact h5 (PyDict.keys_set_nodup hn _ _)
    · obtain ⟨r', h1, h2, h3, h4, h5⟩ := ih r (fun p' hp' => hl p' (by simp [hp']))
      refine ⟨r', by rw [cflowRound, hv]; exact h1, ?_, ?_, ?_, h5⟩
      · intro q'
        rw [h2]
        simp only [List.mem_cons, exists_eq_or_imp, hq q', false_or]
      · intro p'
        rw [h3]
        simp only [List.mem_cons]
        constructor
        · rintro (h | h)
          · exact Or.inl h
          · exact Or.inr ⟨Or.inr h.1, h.2⟩
        · rintro (h | ⟨rfl | h, h'⟩)
          · exact Or.inl h
          · obtain ⟨q', h'⟩ := h'; exact (hq q' h').elim
          · exact Or.inr ⟨h, h'⟩
      · intro u
        rcases h4 u with ⟨p', hp', h6, h7⟩ | ⟨h6, h7⟩
        · exact Or.inl ⟨p', by simp [hp'], h6, h7⟩
        · refine Or.inr ⟨?_, h7⟩
          intro p' hp'
          rcases List.mem_cons.1 hp' with rfl | hp'
          · exact hq u
          · exact h6 p' hp'

end Round

/-- Where the outer loop is. -/
structure CflowInv (og : OpenGraph) (C cand : Finset ℕ) (cf : PyDict ℕ (Finset ℕ)) (layers : List (Finset ℕ)) : Prop where
  sub : C ⊆ og.nodes
  outs : og.outputs.toFinset ⊆ C
  cand_mem : ∀ p ∈ cand, p ∈ C ∧ p ∉ og.inputs
  used : ∀ p ∈ C, p ∉ og.inputs → p ∉ cand → ∀ v, og.Adj p v → v ∈ C
  domain : ∀ u, (∃ s, cf.get? u = some s) ↔ u ∈ C ∧ u ∉ og.outputs
  single : ∀ u s, cf.get? u = some s → ∃ w, s = {w} ∧ w ∈ og.nodes ∧ w ∉ og.inputs ∧ og.Adj u w ∧ Before layers u w ∧
    ∀ v, og.Adj v w → v ≠ u → v ∈ og.nodes → Before layers u v
  keys : cf.keys.Nodup
  head : og.outputs ≠ [] → layers.head? = some og.outputs.toFinset
  nonempty : ∀ L ∈ layers, L.Nonempty
  disj : layers.Pairwise Disjoint
  cover : ∀ v, v ∈ C ↔ ∃ L ∈ layers, v ∈ L

theorem Adj_symm {og : OpenGraph} {u v : ℕ} : og.Adj u v ↔ og.Adj v u := by unfold OpenGraph.Adj; exact Or.comm

theorem Before.append {layers : List (Finset ℕ)} {u v : ℕ} (h : Before layers u v) (l' : List (Finset ℕ)) : Before (layers ++ l') u v := by
  obtain ⟨i, j, K, L, h1, h2, h3, h4, h5⟩ := h
  refine ⟨i, j, K, L, ?_, ?_, h3, h4, h5⟩
  · rw [List.getElem?_append_left]
    · exact h1
    · exact (List.getElem?_eq_some_iff.1 h1).1
  · rw [List.getElem?_append_left]
    · exact h2
    · exact (List.getElem?_eq_some_iff.1 h2).1

theorem before_new {layers : List (Finset ℕ)} {N : Finset ℕ} {u v : ℕ} (hu : u ∈ N) (hv : ∃ L ∈ layers, v ∈ L) :
    Before (layers ++ [N]) u v := by
  obtain ⟨L, hL, hv⟩ := hv
  obtain ⟨j, hj⟩ := List.mem_iff_getElem?.1 hL
  have hlt := (List.getElem?_eq_some_iff.1 hj).1
  exact ⟨layers.length, j, N, L, by simp, by rw [List.getElem?_append_left hlt]; exact hj, hlt, hu, hv⟩

theorem CflowInv.step {og : OpenGraph} (hv : og.Valid) {C cand : Finset ℕ} {cf : PyDict ℕ (Finset ℕ)} {layers : List (Finset ℕ)}
    (h : CflowInv og C cand cf layers) {l : List ℕ} (hl : ∀ p, p ∈ l ↔ p ∈ cand) :
    ∃ r, cflowRound og C l ⟨cf, ∅, ∅⟩ = .ok r ∧ (∀ q, q ∈ r.currLayer ↔ ∃ p ∈ cand, OnlyNbr og C p q) ∧
      (r.currLayer ≠ ∅ → CflowInv og (C ∪ r.currLayer) ((cand \ r.correctorNew) ∪ (r.currLayer ∩ (og.nodes \ og.inputs.toFinset)))
        r.cf (layers ++ [r.currLayer])) := by
  obtain ⟨r, h1, h2, h3, h4, h5⟩ := cflowRound_spec (og := og) (C := C) l ⟨cf, ∅, ∅⟩
    (fun p hp => h.sub (h.cand_mem p ((hl p).1 hp)).1)
  simp only [Finset.notMem_empty, false_or] at h2 h3
  have hcur : ∀ q, q ∈ r.currLayer ↔ ∃ p ∈ cand, OnlyNbr og C p q := by
    intro q; rw [h2]; simp only [hl]
  have only : ∀ {p q}, OnlyNbr og C p q → og.Adj p q ∧ q ∈ og.nodes ∧ q ∉ C ∧ ∀ v, og.Adj p v → v ∈ og.nodes → v ∉ C → v = q := by
    intro p q hpq
    unfold OnlyNbr at hpq
    have hq : q ∈ og.nbrs p ∩ (og.nodes \ C) := by rw [hpq]; simp
    rw [Finset.mem_inter, og.mem_nbrs, Finset.mem_sdiff] at hq
    refine ⟨hq.1, hq.2.1, hq.2.2, fun v h6 h7 h8 => ?_⟩
    have : v ∈ og.nbrs p ∩ (og.nodes \ C) := by rw [Finset.mem_inter, og.mem_nbrs, Finset.mem_sdiff]; exact ⟨h6, h7, h8⟩
    rw [hpq] at this
    simpa using this
  have cur : ∀ q ∈ r.currLayer, q ∈ og.nodes ∧ q ∉ C := by
    intro q hq
    obtain ⟨p, -, hp⟩ := (hcur q).1 hq
    exact ⟨(only hp).2.1, (only hp).2.2.1⟩
  have adjn : ∀ u v, og.Adj u v → u ∈ og.nodes ∧ v ∈ og.nodes := by
    intro u v h
    rcases h with h | h
    · exact hv.edge_mem _ _ h
    · exact (hv.edge_mem _ _ h).symm
  refine ⟨r, h1, hcur, fun hne => ?_⟩
  constructor
  · exact Finset.union_subset h.sub fun q hq => (cur q hq).1
  · exact h.outs.trans Finset.subset_union_left
  · intro p hp
    simp only [Finset.mem_union, Finset.mem_sdiff, Finset.mem_inter, List.mem_toFinset] at hp ⊢
    rcases hp with hp | hp
    · exact ⟨Or.inl (h.cand_mem p hp.1).1, (h.cand_mem p hp.1).2⟩
    · exact ⟨Or.inr hp.1, hp.2.2⟩
  · intro p hp hpi hpc v hpv
    simp only [Finset.mem_union, Finset.mem_sdiff, Finset.mem_inter, List.mem_toFinset, not_or, not_and, not_not] at hp hpc ⊢
    rcases hp with hp | hp
    · by_cases hpc' : p ∈ cand
      · obtain ⟨-, q, hq⟩ := (h3 p).1 (hpc.1 hpc')
        by_cases hvC : v ∈ C
        · exact Or.inl hvC
        · have := (only hq).2.2.2 v hpv (adjn _ _ hpv).2 hvC
          subst this
          exact Or.inr ((hcur v).2 ⟨p, hpc', hq⟩)
      · exact Or.inl (h.used p hp hpi hpc' v hpv)
    · exact (hpi (hpc.2 hp (cur p hp).1)).elim
  · intro u
    rcases h4 u with ⟨p, hp, h6, h7⟩ | ⟨h6, h7⟩
    · have hu : u ∈ r.currLayer := (hcur u).2 ⟨p, (hl p).1 hp, h6⟩
      refine ⟨fun _ => ⟨Finset.mem_union_right _ hu, fun ho => (cur u hu).2 (h.outs (by simpa using ho))⟩, fun _ => ⟨_, h7⟩⟩
    · have hu : u ∉ r.currLayer := fun hu => by
        obtain ⟨p, hp, hq⟩ := (hcur u).1 hu
        exact h6 p ((hl p).2 hp) hq
      rw [h7, h.domain]
      simp [hu]
  · intro u s hs
    rcases h4 u with ⟨p, hp, h6, h7⟩ | ⟨h6, h7⟩
    · have hpc := (hl p).1 hp
      have hu : u ∈ r.currLayer := (hcur u).2 ⟨p, hpc, h6⟩
      rw [h7] at hs
      cases hs
      refine ⟨p, rfl, h.sub (h.cand_mem p hpc).1, (h.cand_mem p hpc).2, Adj_symm.1 (only h6).1,
        before_new hu ((h.cover p).1 (h.cand_mem p hpc).1), ?_⟩
      intro v hvp hvu hvn
      refine before_new hu ((h.cover v).1 ?_)
      by_contra hvC
      exact hvu ((only h6).2.2.2 v (Adj_symm.1 hvp) hvn hvC)
    · rw [h7] at hs
      obtain ⟨w, e1, e2, e3, e4, e5, e6⟩ := h.single u s hs
      exact ⟨w, e1, e2, e3, e4, e5.append _, fun v a b c => (e6 v a b c).append _⟩
  · exact h5 h.keys
  · intro ho
    have := h.head ho
    rw [List.head?_append, this]; rfl
  · intro L hL
    rcases List.mem_append.1 hL with hL | hL
    · exact h.nonempty L hL
    · rw [List.mem_singleton] at hL
      subst hL
      exact Finset.nonempty_iff_ne_empty.2 hne
  · rw [List.pairwise_append]
    refine ⟨h.disj, by simp, ?_⟩
    intro L hL N hN
    rw [List.mem_singleton] at hN
    subst hN
    rw [Finset.disjoint_left]
    intro v hvL hvN
    exact (cur v hvN).2 ((h.cover v).2 ⟨L, hL, hvL⟩)
  · intro v
    rw [Finset.mem_union, h.cover v]
    simp only [List.mem_append, List.mem_singleton, or_and_right, exists_or, exists_eq_left]

theorem finite_maximal {s : Finset ℕ} (hs : s.Nonempty) {lt : ℕ → ℕ → Prop} (hi : ∀ a, ¬ lt a a)
    (ht : ∀ a b c, lt a b → lt b c → lt a c) : ∃ u ∈ s, ∀ v ∈ s, ¬ lt u v := by
  induction hs using Finset.Nonempty.cons_induction with
  | singleton a => exact ⟨a, by simp, by simpa using hi a⟩
  | cons a s ha hs ih =>
    obtain ⟨u, hu, hm⟩ := ih
    by_cases hua : lt u a
    · refine ⟨a, by simp, ?_⟩
      intro v hv
      rcases Finset.mem_cons.1 hv with rfl | hv
      · exact hi _
      · exact fun h => hm v hv (ht _ _ _ hua h)
    · refine ⟨u, by simp [hu], ?_⟩
      intro v hv
      rcases Finset.mem_cons.1 hv with rfl | hv
      · exact hua
      · exact hm v hv

/-- If the open graph has a causal flow, every round finds a node. -/
theorem CflowInv.progress {og : OpenGraph} (hv : og.Valid) {C cand : Finset ℕ} {cf : PyDict ℕ (Finset ℕ)} {layers : List (Finset ℕ)}
    (h : CflowInv og C cand cf layers) (hC : C ≠ og.nodes) (hf : HasCausalFlow og) : ∃ p ∈ cand, ∃ q, OnlyNbr og C p q := by
  obtain ⟨g, lt, hi, ht, hg⟩ := hf
  have hne : (og.nodes \ C).Nonempty := by
    rw [Finset.sdiff_nonempty]
    intro hs
    exact hC (Finset.Subset.antisymm h.sub hs)
  obtain ⟨u, hu, hm⟩ := finite_maximal hne hi ht
  rw [Finset.mem_sdiff] at hu
  obtain ⟨g1, g2, g3, g4, g5⟩ := hg u hu.1 fun ho => hu.2 (h.outs (by simpa using ho))
  have hgC : g u ∈ C := by
    by_contra hn
    exact hm (g u) (Finset.mem_sdiff.2 ⟨g1, hn⟩) g4
  have hall : ∀ v, og.Adj v (g u) → v ≠ u → v ∈ og.nodes → v ∈ C := by
    intro v hvg hvu hvn
    by_contra hn
    exact hm v (Finset.mem_sdiff.2 ⟨hvn, hn⟩) (g5 v hvg hvu)
  refine ⟨g u, ?_, u, ?_⟩
  · by_contra hn
    exact hu.2 (h.used (g u) hgC g2 hn u (Adj_symm.1 g3))
  · unfold OnlyNbr
    ext v
    rw [Finset.mem_inter, og.mem_nbrs, Finset.mem_sdiff, Finset.mem_singleton]
    constructor
    · rintro ⟨h1, h2, h3⟩
      by_contra hvu
      exact h3 (hall v (Adj_symm.1 h1) hvu h2)
    · rintro rfl
      exact ⟨Adj_symm.1 g3, hu⟩

theorem CflowInv.loop {og : OpenGraph} (hv : og.Valid) {ord : SetOrd} (hord : ord.Valid) (n : ℕ) : ∀ {C cand : Finset ℕ}
    {cf : PyDict ℕ (Finset ℕ)} {layers : List (Finset ℕ)}, CflowInv og C cand cf layers → (og.nodes \ C).card = n →
    (∃ f cand', cflowLoop og ord C cand cf layers = .ok (some f) ∧ f.og = og ∧ CflowInv og og.nodes cand' f.corr f.layers) ∨
    (cflowLoop og ord C cand cf layers = .ok none ∧ ¬ HasCausalFlow og) := by
  induction n using Nat.strong_induction_on with
  | _ n ih =>
    intro C cand cf layers h hn
    unfold cflowLoop
    by_cases hC : C = og.nodes
    · rw [if_pos hC]
      subst hC
      exact Or.inl ⟨_, cand, rfl, rfl, h⟩
    · rw [if_neg hC]
      obtain ⟨r, h1, h2, h3⟩ := h.step hv (l := ord 11 layers.length cand) (fun p => (hord _ _ _).2 p)
      split
      · rename_i e he; rw [h1] at he; cases he
      · rename_i r' he
        rw [h1] at he
        cases he
        by_cases hr : r.currLayer = ∅
        · rw [if_pos hr]
          refine Or.inr ⟨rfl, fun hf => ?_⟩
          obtain ⟨p, hp, q, hq⟩ := h.progress hv hC hf
          have := (h2 q).2 ⟨p, hp, hq⟩
          rw [hr] at this
          simp at this
        · rw [if_neg hr]
          refine ih _ ?_ (h3 hr) rfl
          rw [← hn]
          obtain ⟨q, hq⟩ := Finset.nonempty_iff_ne_empty.2 hr
          have hs := cflowRound_mono h1 (by simp)
          refine Finset.card_lt_card ⟨Finset.sdiff_subset_sdiff (Finset.Subset.refl _) Finset.subset_union_left, fun hc => ?_⟩
          have := hc (hs hq)
          simp [hq] at this

theorem CflowInv.init {og : OpenGraph} (hv : og.Valid) : CflowInv og og.outputs.toFinset (og.outputs.toFinset \ og.inputs.toFinset) []
    (if og.outputs ≠ [] then [og.outputs.toFinset] else []) where
  sub := by
    have := hv.post
    unfold OpenGraph.postInit at this
    by_contra hn
    simp only [hn, not_false_eq_true, if_true] at this
    split_ifs at this
  outs := Finset.Subset.refl _
  cand_mem := by simp
  used := by
    intro p hp hpi hpc
    simp at hp hpc
    exact (hpi (hpc hp)).elim
  domain := by simp [PyDict.get?]
  single := by simp [PyDict.get?]
  keys := by simp [PyDict.keys]
  head := by intro h; simp [h]
  nonempty := by
    intro L hL
    split_ifs at hL with h
    · rw [List.mem_singleton] at hL
      subst hL
      obtain ⟨a, ha⟩ := List.exists_mem_of_ne_nil _ h
      exact ⟨a, by simpa using ha⟩
    · simp at hL
  disj := by split_ifs <;> simp
  cover := by
    intro v
    split_ifs with h
    · simp
    · simp only [ne_eq, not_not] at h
      simp [h]

theorem cflowPlanes_spec {l : List Measurement} (h : ∀ m ∈ l, ∃ a, m = .bloch a) :
    (cflowPlanes l = .ok true ∧ ∀ m ∈ l, m.toPlaneOrAxis = .plane .XY) ∨
    (cflowPlanes l = .ok false ∧ ∃ m ∈ l, m.toPlaneOrAxis ≠ .plane .XY) := by
  induction l with
  | nil => exact Or.inl ⟨rfl, by simp⟩
  | cons m l ih =>
    obtain ⟨a, rfl⟩ := h m (by simp)
    unfold cflowPlanes
    simp only [Measurement.toPlane, bind, Except.bind]
    rcases hp : a.plane with _ | _ | _
    · rw [if_neg (by simp)]
      rcases ih fun m hm => h m (by simp [hm]) with ⟨h1, h2⟩ | ⟨h1, h2⟩
      · refine Or.inl ⟨h1, ?_⟩
        intro m hm
        rcases List.mem_cons.1 hm with rfl | hm
        · simp [Measurement.toPlaneOrAxis, hp]
        · exact h2 m hm
      · obtain ⟨m, hm, h3⟩ := h2
        exact Or.inr ⟨h1, m, by simp [hm], h3⟩
    · exact Or.inr ⟨rfl, _, List.mem_cons_self, by simp [Measurement.toPlaneOrAxis, hp]⟩
    · exact Or.inr ⟨rfl, _, List.mem_cons_self, by simp [Measurement.toPlaneOrAxis, hp]⟩

/-- A flow with its layers is a causal flow in the textbook sense. -/
theorem IsCausalFlow.has {f : Flow} (hv : f.og.Valid) (h : IsCausalFlow f) : HasCausalFlow f.og := by
  classical
  refine ⟨fun u => if hs : ∃ w, f.corr.get? u = some {w} then hs.choose else 0, Before f.layers, ?_, ?_, ?_⟩
  · rintro a ⟨i, j, K, L, h1, h2, h3, h4, h5⟩
    have := h.layers.disjoint
    rw [List.pairwise_iff_getElem] at this
    obtain ⟨l1, e1⟩ := List.getElem?_eq_some_iff.1 h1
    obtain ⟨l2, e2⟩ := List.getElem?_eq_some_iff.1 h2
    have hd := this j i l2 l1 h3
    rw [e1, e2] at hd
    exact Finset.disjoint_left.1 hd h5 h4
  · rintro a b c ⟨i, j, K, L, h1, h2, h3, h4, h5⟩ ⟨i', j', K', L', h1', h2', h3', h4', h5'⟩
    have hij : j = i' := by
      have := h.layers.disjoint
      rw [List.pairwise_iff_getElem] at this
      obtain ⟨l1, e1⟩ := List.getElem?_eq_some_iff.1 h2
      obtain ⟨l2, e2⟩ := List.getElem?_eq_some_iff.1 h1'
      rcases lt_trichotomy j i' with hlt | rfl | hlt
      · have hd := this j i' l1 l2 hlt
        rw [e1, e2] at hd
        exact (Finset.disjoint_left.1 hd h5 h4').elim
      · rfl
      · have hd := this i' j l2 l1 hlt
        rw [e1, e2] at hd
        exact (Finset.disjoint_left.1 hd h4' h5).elim
    subst hij
    exact ⟨i, j', K, L', h1, h2', by omega, h4, h5'⟩
  · intro u hu huo
    obtain ⟨s, hs⟩ := (h.domain u).2 ⟨hu, huo⟩
    obtain ⟨w, rfl, h1, h2, h3⟩ := h.single u s hs
    have hex : ∃ w, f.corr.get? u = some {w} := ⟨w, hs⟩
    have hw : hex.choose = w := by
      have := hs.symm.trans hex.choose_spec
      exact (Finset.singleton_injective (Option.some.inj this)).symm
    simp only [dif_pos hex, hw]
    obtain ⟨i1, i2⟩ := h.image u _ w hs (by simp)
    refine ⟨i1, i2, h1, h2, ?_⟩
    intro v hvw hvu
    refine h3 v hvw hvu ?_
    rcases hvw with e | e
    · exact (hv.edge_mem _ _ e).1
    · exact (hv.edge_mem _ _ e).2

/-- **C27.** For every open graph with planar measurements, whatever the iteration order of sets: `find_cflow` does not
raise; what it returns is a causal flow of the open graph, which `check_well_formed` accepts; and it returns `None` only
when some measurement is not in the XY plane or the open graph has no causal flow. -/
theorem C27_find_cflow (og : OpenGraph) (hv : og.Valid) (hpl : ∀ kv ∈ og.measurements, ∃ a, kv.2 = .bloch a) (ord : SetOrd)
    (hord : ord.Valid) :
    (∃ f, findCflow og ord = .ok (some f) ∧ f.og = og ∧ f.corr.keys.Nodup ∧ IsCausalFlow f ∧ (∀ ord' : SetOrd, ord'.Valid → f.checkC ord' = .ok ())) ∨
    (findCflow og ord = .ok none ∧ ¬ ((∀ u ∈ og.nodes, u ∉ og.outputs → og.HasLabel u (.plane .XY)) ∧ HasCausalFlow og)) := by
  have hdom : ∀ u, u ∈ og.nodes → u ∉ og.outputs → ∃ m, og.measurements.get? u = some m := by
    intro u hu huo
    have hm : u ∈ og.measurements.keys := by
      have h := (OpenGraph.postInit_ok hv.post).1
      rw [← List.mem_toFinset, h]
      simp [hu, huo]
    rw [← PyDict.get?_isSome_iff] at hm
    exact Option.isSome_iff_exists.1 hm
  rcases cflowPlanes_spec (l := og.measurements.map Prod.snd) (by
    intro m hm
    obtain ⟨kv, hkv, rfl⟩ := List.mem_map.1 hm
    exact hpl kv hkv) with ⟨h1, h2⟩ | ⟨h1, h2⟩
  · have hxy : ∀ u ∈ og.nodes, u ∉ og.outputs → og.HasLabel u (.plane .XY) := by
      intro u hu huo
      obtain ⟨m, hm⟩ := hdom u hu huo
      exact ⟨m, hm, h2 m (List.mem_map.2 ⟨(u, m), PyDict.mem_of_get? hm, rfl⟩)⟩
    have hrun : findCflow og ord = cflowLoop og ord og.outputs.toFinset (og.outputs.toFinset \ og.inputs.toFinset) []
        (if og.outputs ≠ [] then [og.outputs.toFinset] else []) := by
      unfold findCflow
      simp only [h1, bind, Except.bind, not_true_eq_false, if_false]
    rw [hrun]
    rcases (CflowInv.init hv).loop hv hord _ rfl with ⟨f, cand', h3, h4, h5⟩ | ⟨h3, h4⟩
    · have hf : IsCausalFlow f := by
        subst h4
        refine { domain := ?_, image := ?_, layers := ⟨h5.head, h5.nonempty, h5.disj, h5.cover⟩, xy := hxy, single := ?_ }
        · exact h5.domain
        · intro u s v hs hvs
          obtain ⟨w, rfl, e1, e2, -⟩ := h5.single u s hs
          rw [Finset.mem_singleton] at hvs
          subst hvs
          exact ⟨e1, e2⟩
        · intro u s hs
          obtain ⟨w, e1, -, -, e2, e3, e4⟩ := h5.single u s hs
          exact ⟨w, e1, e2, e3, e4⟩
      refine Or.inl ⟨f, h3, h4, h5.keys, hf, fun ord' hord' => ?_⟩
      exact (C29_causalflow f (by rw [h4]; exact hv) h5.keys ord' hord').2 hf
    · exact Or.inr ⟨h3, fun h => h4 h.2⟩
  · refine Or.inr ⟨by simp only [findCflow, h1, bind, Except.bind, pure, Except.pure]; rfl, ?_⟩
    rintro ⟨h3, -⟩
    obtain ⟨m, hm, h4⟩ := h2
    obtain ⟨kv, hkv, rfl⟩ := List.mem_map.1 hm
    have hg : og.measurements.get? kv.1 = some kv.2 := PyDict.get?_of_mem hv.meas_keys hkv
    have hmem : kv.1 ∈ og.nodes ∧ kv.1 ∉ og.outputs := by
      have h := (OpenGraph.postInit_ok hv.post).1
      have hk : kv.1 ∈ og.measurements.keys.toFinset := by
        rw [List.mem_toFinset]; exact List.mem_map_of_mem hkv
      rw [h] at hk
      simpa using hk
    obtain ⟨m, h5, h6⟩ := h3 kv.1 hmem.1 hmem.2
    rw [hg] at h5
    cases h5
    exact h4 h6

/-- **C27, completeness.** An open graph that has a causal flow object is never answered with `None`. -/
theorem C27_complete (f : Flow) (hv : f.og.Valid) (hpl : ∀ kv ∈ f.og.measurements, ∃ a, kv.2 = .bloch a) (hf : IsCausalFlow f)
    (ord : SetOrd) (hord : ord.Valid) : ∃ f', findCflow f.og ord = .ok (some f') ∧ f'.og = f.og ∧ IsCausalFlow f' := by
  rcases C27_find_cflow f.og hv hpl ord hord with ⟨f', h1, h2, -, h3, -⟩ | ⟨-, h⟩
  · exact ⟨f', h1, h2, h3⟩
  · exact (h ⟨hf.xy, hf.has hv⟩).elim

/-- The path has a causal flow, and it is found. -/
example : ∃ f', findCflow (exOg exLabels) exOrd = .ok (some f') ∧ f'.og = exOg exLabels ∧ IsCausalFlow f' :=
  C27_complete (exFlow exLabels) (exOg_valid _) (by simp [exFlow, exOg, exLabels])
    ((C29_causalflow (exFlow exLabels) (exOg_valid _) (by simp [exFlow, PyDict.keys]) exOrd exOrd_valid).1 rfl) exOrd exOrd_valid

/-- An edge between two inputs has no causal flow. -/
example : findCflow ⟨{0, 1}, [(0, 1)], [0, 1], [1], [(0, .bloch ⟨1/4, .XY⟩)], []⟩ exOrd = .ok none := by
  have hv : (OpenGraph.mk {0, 1} [(0, 1)] [0, 1] [1] [(0, .bloch ⟨1/4, .XY⟩)] []).Valid :=
    ⟨rfl, by simp, by simp, by simp [PyDict.keys], by simp [PyDict.keys]⟩
  rcases C27_find_cflow _ hv (by simp) exOrd exOrd_valid with ⟨f, -, h, -, hf, -⟩ | ⟨h, -⟩
  · obtain ⟨s, hs⟩ := (hf.domain 0).2 (by rw [h]; simp)
    obtain ⟨w, rfl, -⟩ := hf.single 0 s hs
    obtain ⟨h1, h2⟩ := hf.image 0 _ w hs (by simp)
    rw [h] at h1 h2
    simp at h1 h2
    omega
  · exact h

end Graphix
