import Verif.Spec.Flow

/-! Helper lemmas on the flow checks. -/

namespace Graphix

open scoped symmDiff

theorem OpenGraph.mem_nbrs (og : OpenGraph) (u v : ℕ) : v ∈ og.nbrs u ↔ og.Adj u v := by
  unfold nbrs Adj
  simp only [List.mem_toFinset, List.mem_filterMap, Prod.exists]
  constructor
  · rintro ⟨a, b, hm, h⟩
    by_cases h1 : a = u
    · simp only [h1, if_true, Option.some.injEq] at h; subst h; subst h1; exact Or.inl hm
    · by_cases h2 : b = u
      · simp only [h1, h2, if_true, if_false, Option.some.injEq] at h; subst h; subst h2; exact Or.inr hm
      · simp [h1, h2] at h
  · rintro (h | h)
    · exact ⟨u, v, h, by simp⟩
    · by_cases h1 : v = u
      · subst h1; exact ⟨v, v, h, by simp⟩
      · exact ⟨v, u, h, by simp [h1]⟩

theorem OpenGraph.Adj.symm {og : OpenGraph} {u v : ℕ} (h : og.Adj u v) : og.Adj v u := Or.symm h

theorem OpenGraph.adj_comm {og : OpenGraph} {u v : ℕ} : og.Adj u v ↔ og.Adj v u := ⟨.symm, .symm⟩

/-- The odd neighbourhood computed by the code. -/
def OpenGraph.oddSet (og : OpenGraph) (s : Finset ℕ) : Finset ℕ := s.fold (· ∆ ·) ∅ og.nbrs

theorem OpenGraph.mem_oddSet (og : OpenGraph) (s : Finset ℕ) (v : ℕ) : v ∈ og.oddSet s ↔ og.InOdd s v := by
  unfold oddSet InOdd
  induction s using Finset.induction_on with
  | empty => simp
  | insert a s ha ih =>
    rw [Finset.fold_insert ha, Finset.mem_symmDiff, ih, og.mem_nbrs, Finset.filter_insert]
    by_cases h : og.Adj v a
    · have h' : og.Adj a v := h.symm
      rw [if_pos h, Finset.card_insert_of_notMem (by simp [ha])]
      simp [h', Nat.odd_add_one]
    · have h' : ¬ og.Adj a v := fun h2 => h h2.symm
      rw [if_neg h]; simp [h']

theorem OpenGraph.oddNeighbors_eq (og : OpenGraph) {s : Finset ℕ} (h : s ⊆ og.nodes) :
    og.oddNeighbors s = .ok (og.oddSet s) := by
  unfold oddNeighbors; rw [if_pos h]; rfl

/-- Union of a list of layers. -/
def unionL (ls : List (Finset ℕ)) : Finset ℕ := ls.foldr (· ∪ ·) ∅

@[simp] theorem unionL_nil : unionL [] = ∅ := rfl
@[simp] theorem unionL_cons (L : Finset ℕ) (ls) : unionL (L :: ls) = L ∪ unionL ls := rfl

theorem mem_unionL {ls : List (Finset ℕ)} {v : ℕ} : v ∈ unionL ls ↔ ∃ L ∈ ls, v ∈ L := by
  induction ls with
  | nil => simp
  | cons L ls ih => simp [ih]

/-- The conditions checked by the loop over the measured layers. -/
def LoopOk (meas : Finset ℕ) (P : Finset ℕ → ℕ → Prop) : List (Finset ℕ) → Finset ℕ → Prop
  | [], _ => True
  | L :: ls, past => L ⊆ meas ∧ L ≠ ∅ ∧ L ∩ past = ∅ ∧ (∀ n ∈ L, P (past ∪ L) n) ∧ LoopOk meas P ls (past ∪ L)

theorem LoopOk.snoc {meas : Finset ℕ} {P : Finset ℕ → ℕ → Prop} (ls : List (Finset ℕ)) (L : Finset ℕ) (past : Finset ℕ) :
    LoopOk meas P (ls ++ [L]) past ↔ LoopOk meas P ls past ∧ L ⊆ meas ∧ L ≠ ∅ ∧ L ∩ (past ∪ unionL ls) = ∅ ∧
      ∀ n ∈ L, P (past ∪ unionL ls ∪ L) n := by
  induction ls generalizing past with
  | nil => simp [LoopOk]
  | cons K ls ih =>
    simp only [List.cons_append, LoopOk, ih, unionL_cons, Finset.union_assoc]
    tauto

theorem unionL_reverse (ls : List (Finset ℕ)) : unionL ls.reverse = unionL ls := by
  ext v; simp [mem_unionL]

theorem LoopOk.reverse {meas : Finset ℕ} {P : Finset ℕ → ℕ → Prop} (ls : List (Finset ℕ)) :
    LoopOk meas P ls.reverse ∅ ↔ (∀ L ∈ ls, L ⊆ meas) ∧ (∀ L ∈ ls, L ≠ ∅) ∧ ls.Pairwise Disjoint ∧
      ∀ (i : ℕ) (L : Finset ℕ), ls[i]? = some L → ∀ n ∈ L, P (unionL (ls.drop i)) n := by
  induction ls with
  | nil => simp [LoopOk]
  | cons L ls ih =>
    rw [List.reverse_cons, LoopOk.snoc, ih, unionL_reverse, List.pairwise_cons]
    have hd : L ∩ (∅ ∪ unionL ls) = ∅ ↔ ∀ K ∈ ls, Disjoint L K := by
      rw [Finset.empty_union, ← Finset.disjoint_iff_inter_eq_empty]
      simp only [Finset.disjoint_left, mem_unionL]
      constructor
      · intro h K hK v hv hvK; exact h hv ⟨K, hK, hvK⟩
      · rintro h v hv ⟨K, hK, hvK⟩; exact h K hK hv hvK
    have hi : (∀ (i : ℕ) (K : Finset ℕ), (L :: ls)[i]? = some K → ∀ n ∈ K, P (unionL ((L :: ls).drop i)) n) ↔
        (∀ n ∈ L, P (unionL ls ∪ L) n) ∧
        ∀ (i : ℕ) (K : Finset ℕ), ls[i]? = some K → ∀ n ∈ K, P (unionL (ls.drop i)) n := by
      constructor
      · intro h
        refine ⟨fun n hn => ?_, fun i K hK n hn => ?_⟩
        · have := h 0 L (by simp) n hn
          simpa [Finset.union_comm] using this
        · have := h (i + 1) K (by simpa using hK) n hn
          simpa using this
      · rintro ⟨h1, h2⟩ i K hK n hn
        cases i with
        | zero => simp at hK; subst hK; simpa [Finset.union_comm] using h1 n hn
        | succ i => simpa using h2 i K (by simpa using hK) n hn
    rw [hd, hi, Finset.empty_union]
    simp only [List.forall_mem_cons]
    tauto

/-- The nodes that do not come after `n`. -/
noncomputable def notAfter (og : OpenGraph) (layers : List (Finset ℕ)) (n : ℕ) : Finset ℕ := by
  classical exact og.nodes.filter fun v => ¬ Before layers n v

theorem mem_notAfter {og : OpenGraph} {layers : List (Finset ℕ)} {n v : ℕ} :
    v ∈ notAfter og layers n ↔ v ∈ og.nodes ∧ ¬ Before layers n v := by
  classical simp [notAfter]

theorem index_unique {layers : List (Finset ℕ)} (hd : layers.Pairwise Disjoint) {i j : ℕ} {K L : Finset ℕ} {v : ℕ}
    (hi : layers[i]? = some K) (hj : layers[j]? = some L) (hK : v ∈ K) (hL : v ∈ L) : i = j := by
  by_contra hne
  have key : ∀ {i j : ℕ} {K L : Finset ℕ}, layers[i]? = some K → layers[j]? = some L → i < j → Disjoint K L := by
    intro i j K L hi hj hlt
    obtain ⟨h1, rfl⟩ := List.getElem?_eq_some_iff.1 hi
    obtain ⟨h2, rfl⟩ := List.getElem?_eq_some_iff.1 hj
    exact List.pairwise_iff_getElem.1 hd i j h1 h2 hlt
  rcases Nat.lt_or_gt_of_ne hne with h | h
  · exact Finset.disjoint_left.1 (key hi hj h) hK hL
  · exact Finset.disjoint_left.1 (key hj hi h) hL hK

theorem notAfter_eq {og : OpenGraph} {layers : List (Finset ℕ)} (hd : layers.Pairwise Disjoint)
    (hc : ∀ v, v ∈ og.nodes ↔ ∃ L ∈ layers, v ∈ L) {i : ℕ} {L : Finset ℕ} (hi : layers[i]? = some L) {n : ℕ}
    (hn : n ∈ L) : notAfter og layers n = unionL (layers.drop i) := by
  ext v
  rw [mem_notAfter, mem_unionL]
  constructor
  · rintro ⟨hv, hb⟩
    obtain ⟨K, hK, hvK⟩ := (hc v).1 hv
    obtain ⟨j, hj, rfl⟩ := List.getElem_of_mem hK
    refine ⟨layers[j], ?_, hvK⟩
    by_contra hmem
    have hlt : j < i := by
      by_contra hge
      apply hmem
      rw [List.mem_iff_getElem?]
      exact ⟨j - i, by rw [List.getElem?_drop, show i + (j - i) = j by omega]; simp [hj]⟩
    exact hb ⟨i, j, L, layers[j], hi, by simp [hj], hlt, hn, hvK⟩
  · rintro ⟨K, hK, hvK⟩
    obtain ⟨k, hk⟩ := List.mem_iff_getElem?.1 hK
    rw [List.getElem?_drop] at hk
    refine ⟨(hc v).2 ⟨K, List.mem_of_getElem? hk, hvK⟩, ?_⟩
    rintro ⟨i', j', K', L', h1, h2, hlt, h3, h4⟩
    have e1 := index_unique hd hi h1 hn h3
    have e2 := index_unique hd hk h2 hvK h4
    omega

theorem nodup_of_card {l : List ℕ} (h : l.toFinset.card = l.length) : l.Nodup := by
  have := (Multiset.toFinset_card_eq_card_iff_nodup (m := (l : Multiset ℕ))).1 (by simpa using h)
  simpa using this

theorem OpenGraph.postInit_ok {og : OpenGraph} (h : og.postInit = .ok ()) :
    og.measurements.keys.toFinset = og.nodes \ og.outputs.toFinset ∧ og.inputs.toFinset ⊆ og.nodes ∧
      og.outputs.toFinset ⊆ og.nodes ∧ og.inputs.Nodup ∧ og.outputs.Nodup ∧
      og.cliffords.keys.toFinset ⊆ og.outputs.toFinset := by
  unfold postInit at h
  simp only [] at h
  by_cases h1 : ¬ og.measurements.keys.toFinset ⊆ og.nodes
  · rw [if_pos h1] at h; simp at h
  rw [if_neg h1] at h
  by_cases h2 : ¬ og.inputs.toFinset ⊆ og.nodes
  · rw [if_pos h2] at h; simp at h
  rw [if_neg h2] at h
  by_cases h3 : ¬ og.outputs.toFinset ⊆ og.nodes
  · rw [if_pos h3] at h; simp at h
  rw [if_neg h3] at h
  by_cases h4 : og.outputs.toFinset ∩ og.measurements.keys.toFinset ≠ ∅
  · rw [if_pos h4] at h; simp at h
  rw [if_neg h4] at h
  by_cases h5 : og.nodes \ og.outputs.toFinset ≠ og.measurements.keys.toFinset
  · rw [if_pos h5] at h; simp at h
  rw [if_neg h5] at h
  by_cases h6 : og.inputs.toFinset.card ≠ og.inputs.length
  · rw [if_pos h6] at h; simp at h
  rw [if_neg h6] at h
  by_cases h7 : og.outputs.toFinset.card ≠ og.outputs.length
  · rw [if_pos h7] at h; simp at h
  rw [if_neg h7] at h
  by_cases h8 : ¬ og.cliffords.keys.toFinset ⊆ og.outputs.toFinset
  · rw [if_pos h8] at h; simp at h
  push Not at h1 h2 h3 h4 h5 h6 h7 h8
  exact ⟨h5.symm, h2, h3, nodup_of_card h6, nodup_of_card h7, h8⟩

/-- The checks on the first layer. -/
def LayerHeadOk (og : OpenGraph) (layers : List (Finset ℕ)) : Prop :=
  (layers = [] → og.nodes = ∅) ∧
    ∀ first rest, layers = first :: rest → og.outputs.toFinset ≠ ∅ → first = og.outputs.toFinset

theorem layers_iff {og : OpenGraph} (h : og.postInit = .ok ()) (layers : List (Finset ℕ)) (P : Finset ℕ → ℕ → Prop) :
    (LayerHeadOk og layers ∧ LoopOk og.measurements.keys.toFinset P (og.measuredLayers layers).reverse ∅ ∧
      og.outputs.toFinset ∪ unionL (og.measuredLayers layers) = og.nodes) ↔
    (LayersOk og layers ∧ ∀ u ∈ og.nodes, u ∉ og.outputs → P (notAfter og layers u) u) := by
  obtain ⟨hm, hi, ho, -, -, -⟩ := og.postInit_ok h
  rw [LoopOk.reverse]
  unfold OpenGraph.measuredLayers
  by_cases ho0 : og.outputs = []
  · simp only [ho0, ne_eq, not_true_eq_false, if_false]
    have hm' : og.measurements.keys.toFinset = og.nodes := by rw [hm, ho0]; simp
    rw [hm']
    constructor
    · rintro ⟨⟨h1, -⟩, ⟨h2, h3, h4, h5⟩, h6⟩
      have hc : ∀ v, v ∈ og.nodes ↔ ∃ L ∈ layers, v ∈ L := by
        intro v; rw [← h6]; simp [mem_unionL]
      refine ⟨⟨fun hne => absurd ho0 hne, fun L hL => Finset.nonempty_iff_ne_empty.2 (h3 L hL), h4, hc⟩, ?_⟩
      intro u hu _
      obtain ⟨L, hL, huL⟩ := (hc u).1 hu
      obtain ⟨i, hi⟩ := List.mem_iff_getElem?.1 hL
      rw [notAfter_eq h4 hc hi huL]
      exact h5 i L hi u huL
    · rintro ⟨⟨-, h3, h4, hc⟩, h5⟩
      refine ⟨⟨?_, ?_⟩, ⟨?_, ?_, h4, ?_⟩, ?_⟩
      · rintro rfl; ext v; simp [hc]
      · simp [ho0]
      · intro L hL v hv; exact (hc v).2 ⟨L, hL, hv⟩
      · intro L hL; exact Finset.nonempty_iff_ne_empty.1 (h3 L hL)
      · intro i L hi n hn
        rw [← notAfter_eq h4 hc hi hn]
        exact h5 n ((hc n).2 ⟨L, List.mem_of_getElem? hi, hn⟩) (by simp)
      · ext v; simp [mem_unionL, hc]
  · simp only [ho0, ne_eq, not_false_eq_true, if_true]
    have hone : og.outputs.toFinset ≠ ∅ := by simpa using ho0
    cases layers with
    | nil =>
      constructor
      · rintro ⟨⟨h1, -⟩, -⟩
        have := h1 rfl; rw [this, Finset.subset_empty] at ho; exact absurd ho hone
      · rintro ⟨h1, -⟩
        have := h1.outputs ho0; simp at this
    | cons O ls =>
      simp only [List.drop_succ_cons, List.drop_zero]
      constructor
      · rintro ⟨⟨-, h1⟩, ⟨h2, h3, h4, h5⟩, h6⟩
        have hO : O = og.outputs.toFinset := h1 O ls rfl hone
        subst hO
        have hc : ∀ v, v ∈ og.nodes ↔ ∃ L ∈ og.outputs.toFinset :: ls, v ∈ L := by
          intro v; rw [← h6]; simp [mem_unionL]
        have hd : (og.outputs.toFinset :: ls).Pairwise Disjoint := by
          rw [List.pairwise_cons]
          refine ⟨fun L hL => ?_, h4⟩
          rw [Finset.disjoint_left]
          intro v hv hvL
          have := h2 L hL hvL
          rw [hm, Finset.mem_sdiff] at this
          exact this.2 hv
        refine ⟨⟨fun _ => rfl, ?_, hd, hc⟩, ?_⟩
        · intro L hL
          rcases List.mem_cons.1 hL with rfl | hL
          · exact Finset.nonempty_iff_ne_empty.2 hone
          · exact Finset.nonempty_iff_ne_empty.2 (h3 L hL)
        · intro u hu huo
          obtain ⟨L, hL, huL⟩ := (hc u).1 hu
          rcases List.mem_cons.1 hL with rfl | hL
          · exact absurd (List.mem_toFinset.1 huL) huo
          · obtain ⟨i, hi⟩ := List.mem_iff_getElem?.1 hL
            rw [notAfter_eq hd hc (i := i + 1) (L := L) (by simpa using hi) huL]
            simpa using h5 i L hi u huL
      · rintro ⟨⟨h1, h3, h4, hc⟩, h5⟩
        have hO : O = og.outputs.toFinset := by simpa using h1 ho0
        subst hO
        have hdis := (List.pairwise_cons.1 h4).1
        refine ⟨⟨by simp, ?_⟩, ⟨?_, ?_, (List.pairwise_cons.1 h4).2, ?_⟩, ?_⟩
        · rintro first rest heq -
          simp only [List.cons.injEq] at heq; exact heq.1.symm
        · intro L hL v hv
          rw [hm, Finset.mem_sdiff]
          exact ⟨(hc v).2 ⟨L, List.mem_cons_of_mem _ hL, hv⟩, fun h => Finset.disjoint_left.1 (hdis L hL) h hv⟩
        · intro L hL; exact Finset.nonempty_iff_ne_empty.1 (h3 L (List.mem_cons_of_mem _ hL))
        · intro i L hi n hn
          have := notAfter_eq h4 hc (i := i + 1) (L := L) (by simpa using hi) hn
          simp only [List.drop_succ_cons] at this
          rw [← this]
          have hL := List.mem_of_getElem? hi
          exact h5 n ((hc n).2 ⟨L, List.mem_cons_of_mem _ hL, hn⟩)
            (fun h => Finset.disjoint_left.1 (hdis L hL) (List.mem_toFinset.2 h) hn)
        · ext v; rw [hc]; simp [mem_unionL]

end Graphix
