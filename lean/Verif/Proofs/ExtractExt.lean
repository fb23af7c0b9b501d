import Verif.Proofs.ExtractFlow
import Verif.Props.FindGpflow

/-! The images of the `X` operators: the open graph with one more node before each input. -/

namespace Graphix

theorem OpenGraph.postInit_of {og : OpenGraph} (h1 : og.measurements.keys.toFinset = og.nodes \ og.outputs.toFinset)
    (h2 : og.inputs.toFinset ⊆ og.nodes) (h3 : og.outputs.toFinset ⊆ og.nodes) (h4 : og.inputs.Nodup) (h5 : og.outputs.Nodup)
    (h6 : og.cliffords.keys.toFinset ⊆ og.outputs.toFinset) : og.postInit = .ok () := by
  unfold postInit
  simp only []
  rw [if_neg (by rw [not_not, h1]; exact Finset.sdiff_subset), if_neg (by simpa using h2), if_neg (by simpa using h3),
    if_neg (by rw [h1]; simp), if_neg (by rw [h1]; simp), if_neg (by rw [List.toFinset_card_of_nodup h4]; simp),
    if_neg (by rw [List.toFinset_card_of_nodup h5]; simp), if_neg (by simpa using h6)]

namespace Extract

open Function

theorem extendLoop_eq (l : List ℕ) : ∀ (k : ℕ) es d new, extendLoop l k es d new =
    (es ++ l.zipIdx k, (l.zipIdx k).foldl (fun d e => d.set e.1 e.2) d, new ++ (l.zipIdx k).map Prod.snd) := by
  induction l with
  | nil => intro k es d new; simp [extendLoop]
  | cons a l ih => intro k es d new; rw [extendLoop, ih]; simp

theorem zipIdx_nodup {l : List ℕ} (hl : l.Nodup) (k : ℕ) : l.zipIdx k = l.map fun i => (i, k + l.idxOf i) := by
  refine List.ext_getElem (by simp) fun n h1 h2 => ?_
  simp only [List.getElem_zipIdx, List.getElem_map]
  rw [hl.idxOf_getElem]

theorem foldl_set_get (g : ℕ → ℕ) (l : List ℕ) : ∀ (d : PyDict ℕ ℕ) (i : ℕ),
    ((l.map fun i => (i, g i)).foldl (fun d e => d.set e.1 e.2) d).get? i = if i ∈ l then some (g i) else d.get? i := by
  induction l with
  | nil => intro d i; simp
  | cons a l ih =>
    intro d i
    rw [List.map_cons, List.foldl_cons, ih, PyDict.get?_set]
    by_cases h : i ∈ l
    · simp [h]
    · by_cases h' : i = a
      · subst h'; simp
      · simp [h, h', Ne.symm h']

theorem foldl_set_const (x : Measurement) (l : List ℕ) : ∀ (d : PyDict ℕ Measurement), d.keys.Nodup →
    (l.foldl (fun m n => m.set n x) d).keys.Nodup ∧
    (∀ v, v ∈ (l.foldl (fun m n => m.set n x) d).keys ↔ v ∈ l ∨ v ∈ d.keys) ∧
    ∀ v, (l.foldl (fun m n => m.set n x) d).get? v = if v ∈ l then some x else d.get? v := by
  induction l with
  | nil => intro d hd; simp [hd]
  | cons a l ih =>
    intro d hd
    obtain ⟨h1, h2, h3⟩ := ih (d.set a x) (PyDict.keys_set_nodup hd _ _)
    refine ⟨h1, fun v => ?_, fun v => ?_⟩
    · rw [List.foldl_cons, h2, PyDict.mem_keys_set]; simp; tauto
    · rw [List.foldl_cons, h3, PyDict.get?_set]
      by_cases h : v ∈ l
      · simp [h]
      · by_cases h' : v = a
        · subst h'; simp
        · simp [h, h', Ne.symm h']

/-- `og'` is `og` with one more input `anc i`, measured along X, before each input `i`. -/
structure Ext (og og' : OpenGraph) (anc : ℕ → ℕ) : Prop where
  nodes : og'.nodes = og.nodes ∪ (og.inputs.map anc).toFinset
  edges : og'.edges = og.edges ++ og.inputs.reverse.map fun i => (i, anc i)
  inputs : og'.inputs = og.inputs.map anc
  outputs : og'.outputs = og.outputs
  meas : ∀ v, og'.measurements.get? v = if v ∈ og.inputs.map anc then some (.pauli ⟨.X, .plus⟩) else og.measurements.get? v
  fresh : ∀ i, anc i ∉ og.nodes
  inj : ∀ i ∈ og.inputs, ∀ j ∈ og.inputs, anc i = anc j → i = j
  valid : og'.Valid

theorem extendInput_spec {og : OpenGraph} (hv : og.Valid) (hne : og.nodes ≠ ∅) :
    ∃ og' d anc, extendInput og = .ok (og', d) ∧ Ext og og' anc ∧ ∀ i ∈ og.inputs, d.get? i = some (anc i) := by
  obtain ⟨hm, hi, ho, hin, hon, hc⟩ := og.postInit_ok hv.post
  set k := og.nodes.sup id + 1 with hk
  have hrev : og.inputs.reverse.Nodup := List.nodup_reverse.2 hin
  set anc : ℕ → ℕ := fun i => k + og.inputs.reverse.idxOf i with hanc
  have hz : og.inputs.reverse.zipIdx k = og.inputs.reverse.map fun i => (i, anc i) := zipIdx_nodup hrev k
  have hfresh : ∀ i, anc i ∉ og.nodes := by
    intro i hmem
    have := Finset.le_sup (f := id) hmem
    simp only [id, hanc] at this
    omega
  have hinj : ∀ i ∈ og.inputs, ∀ j ∈ og.inputs, anc i = anc j → i = j := by
    intro i h1 j h2 h
    exact (List.idxOf_inj (List.mem_reverse.2 h1)).1 (by simpa [hanc] using h)
  have hanc_nodup : (og.inputs.map anc).Nodup := List.Nodup.map_on (fun i h1 j h2 h => hinj i h1 j h2 h) hin
  have hnew : (og.inputs.reverse.map fun i => (i, anc i)).map Prod.snd = (og.inputs.map anc).reverse := by
    rw [List.map_map, ← List.map_reverse]; rfl
  obtain ⟨m1, m2, m3⟩ := foldl_set_const (.pauli ⟨.X, .plus⟩) (og.inputs.map anc).reverse og.measurements hv.meas_keys
  set og' : OpenGraph := { og with
    nodes := og.nodes ∪ (og.inputs.map anc).reverse.toFinset
    edges := og.edges ++ og.inputs.reverse.map fun i => (i, anc i)
    inputs := (og.inputs.map anc).reverse.reverse
    measurements := (og.inputs.map anc).reverse.foldl (fun m n => m.set n (Measurement.pauli ⟨.X, .plus⟩)) og.measurements } with hog'
  have hpost : og'.postInit = .ok () := by
    apply OpenGraph.postInit_of
    · ext v
      have hmv : v ∈ og.measurements.keys ↔ v ∈ og.nodes ∧ v ∉ og.outputs := by
        have := Finset.ext_iff.1 hm v; simpa using this
      simp only [hog', List.mem_toFinset, m2, Finset.mem_sdiff, Finset.mem_union, hmv, List.mem_reverse]
      have : v ∈ og.inputs.map anc → v ∉ og.outputs := by
        intro h h'
        obtain ⟨i, -, rfl⟩ := List.mem_map.1 h
        exact hfresh i (ho (by simpa using h'))
      tauto
    · intro v h; simp only [hog', List.reverse_reverse] at h ⊢; simp at h ⊢; exact Or.inr h
    · exact ho.trans (by simp only [hog']; exact Finset.subset_union_left)
    · simpa [hog'] using hanc_nodup
    · exact hon
    · exact hc
  refine ⟨og', (og.inputs.reverse.map fun i => (i, anc i)).foldl (fun d e => d.set e.1 e.2) [], anc, ?_, ?_, ?_⟩
  · unfold extendInput
    simp only [if_neg hne, bind, Except.bind, pure, Except.pure]
    rw [← hk, extendLoop_eq, hz]
    simp only [List.nil_append]
    rw [hnew]
    rw [hog'] at hpost
    simp only [hpost, hog']
  · refine ⟨by simp [hog'], rfl, by simp [hog'], rfl, ?_, hfresh, hinj, hpost, ?_, ?_, m1, hv.clif_keys⟩
    · intro v; simp only [hog', m3, List.mem_reverse]
    · intro u v huv
      rcases List.mem_append.1 huv with h | h
      · obtain ⟨h1, h2⟩ := hv.edge_mem u v h
        exact ⟨Finset.mem_union_left _ h1, Finset.mem_union_left _ h2⟩
      · obtain ⟨i, h1, h2⟩ := List.mem_map.1 h
        obtain ⟨rfl, rfl⟩ := Prod.mk.inj h2
        have hi' : i ∈ og.inputs := List.mem_reverse.1 h1
        exact ⟨Finset.mem_union_left _ (hi (by simpa using hi')), Finset.mem_union_right _ (by simp; exact ⟨i, hi', rfl⟩)⟩
    · refine List.pairwise_append.2 ⟨hv.edge_once, ?_, ?_⟩
      · refine List.Pairwise.map _ (R := fun i j => i ≠ j ∧ i ∈ og.inputs ∧ j ∈ og.inputs) ?_ ?_
        · rintro i j ⟨h1, h2, h3⟩
          refine ⟨fun h => h1 (Prod.mk.inj h).1, fun h => ?_⟩
          have : i = anc j := (Prod.mk.inj h).1
          exact hfresh j (this ▸ hi (by simpa using h2))
        · exact hrev.imp_of_mem fun h1 h2 h => ⟨h, List.mem_reverse.1 h1, List.mem_reverse.1 h2⟩
      · rintro ⟨a, b⟩ hab e' he'
        obtain ⟨i, h1, rfl⟩ := List.mem_map.1 he'
        obtain ⟨ha, hb⟩ := hv.edge_mem a b hab
        refine ⟨fun h => hfresh i ?_, fun h => hfresh i ?_⟩
        · rw [← (Prod.mk.inj h).2]; exact hb
        · have h2 : a = anc i := (Prod.mk.inj h).1
          exact h2 ▸ ha
  · intro i h
    rw [foldl_set_get]
    simp [h]

section

variable {og og' : OpenGraph} {anc : ℕ → ℕ}

theorem Ext.adj_old (h : Ext og og' anc) (hv : og.Valid) {u v : ℕ} (hu : u ∈ og.nodes) (hw : v ∈ og.nodes) : og'.Adj u v ↔ og.Adj u v := by
  unfold OpenGraph.Adj
  rw [h.edges]
  simp only [List.mem_append, List.mem_map, List.mem_reverse, Prod.mk.injEq]
  constructor
  · rintro ((h1 | ⟨i, -, -, rfl⟩) | (h1 | ⟨i, -, -, rfl⟩))
    · exact Or.inl h1
    · exact absurd hw (h.fresh i)
    · exact Or.inr h1
    · exact absurd hu (h.fresh i)
  · rintro (h1 | h1)
    · exact Or.inl (Or.inl h1)
    · exact Or.inr (Or.inl h1)

theorem Ext.adj_new (h : Ext og og' anc) (hv : og.Valid) {i v : ℕ} (hi : i ∈ og.inputs) (hw : v ∈ og.nodes) : og'.Adj (anc i) v ↔ v = i := by
  unfold OpenGraph.Adj
  rw [h.edges]
  simp only [List.mem_append, List.mem_map, List.mem_reverse, Prod.mk.injEq]
  constructor
  · rintro ((h1 | ⟨j, -, -, rfl⟩) | (h1 | ⟨j, h1, rfl, h2⟩))
    · exact absurd (hv.edge_mem _ _ h1).1 (h.fresh i)
    · exact absurd hw (h.fresh j)
    · exact absurd (hv.edge_mem _ _ h1).2 (h.fresh i)
    · exact h.inj _ h1 _ hi h2
  · rintro rfl
    exact Or.inr (Or.inr ⟨v, hi, rfl, rfl⟩)

theorem Ext.odd_old (h : Ext og og' anc) (hv : og.Valid) {S : Finset ℕ} (hS : S ⊆ og.nodes) {v : ℕ} (hw : v ∈ og.nodes) :
    og'.InOdd S v ↔ og.InOdd S v := by
  unfold OpenGraph.InOdd
  rw [Finset.filter_congr fun x hx => h.adj_old hv hw (hS hx)]

theorem Ext.odd_new (h : Ext og og' anc) (hv : og.Valid) {S : Finset ℕ} (hS : S ⊆ og.nodes) {i : ℕ} (hi : i ∈ og.inputs) :
    og'.InOdd S (anc i) ↔ i ∈ S := by
  unfold OpenGraph.InOdd
  rw [Finset.filter_congr fun x hx => h.adj_new hv hi (hS hx), Finset.filter_eq']
  by_cases hm : i ∈ S <;> simp [hm]

theorem Ext.label_old (h : Ext og og' anc) {v : ℕ} (hw : v ∈ og.nodes) (l : Label) : og'.HasLabel v l ↔ og.HasLabel v l := by
  unfold OpenGraph.HasLabel
  rw [h.meas, if_neg]
  intro hm
  obtain ⟨i, -, rfl⟩ := List.mem_map.1 hm
  exact h.fresh i hw

theorem Ext.label_new (h : Ext og og' anc) {i : ℕ} (hi : i ∈ og.inputs) (l : Label) : og'.HasLabel (anc i) l ↔ l = .axis .X := by
  unfold OpenGraph.HasLabel
  rw [h.meas, if_pos (List.mem_map.2 ⟨i, hi, rfl⟩)]
  constructor
  · rintro ⟨m, h1, h2⟩
    obtain rfl := Option.some.inj h1
    exact h2.symm
  · rintro rfl; exact ⟨_, rfl, rfl⟩

theorem Ext.mem_nodes (h : Ext og og' anc) (v : ℕ) : v ∈ og'.nodes ↔ v ∈ og.nodes ∨ ∃ i ∈ og.inputs, anc i = v := by
  rw [h.nodes]; simp

theorem label_node (hv : og.Valid) {v : ℕ} {l : Label} (h : og.HasLabel v l) : v ∈ og.nodes ∧ v ∉ og.outputs := by
  obtain ⟨m, h1, -⟩ := h
  have hk : v ∈ og.measurements.keys := (PyDict.get?_isSome_iff _ _).1 (by rw [h1]; rfl)
  have := Finset.ext_iff.1 (og.postInit_ok hv.post).1 v
  simpa [hk] using this

theorem Ext.noloop (h : Ext og og' anc) (hv : og.Valid) (hloop : ∀ v, (v, v) ∉ og.edges) (v : ℕ) : (v, v) ∉ og'.edges := by
  rw [h.edges]
  intro hm
  rcases List.mem_append.1 hm with h1 | h1
  · exact hloop v h1
  · obtain ⟨i, h2, h3⟩ := List.mem_map.1 h1
    obtain ⟨rfl, h4⟩ := Prod.mk.inj h3
    have : i ∈ og.nodes := (og.postInit_ok hv.post).2.1 (by simpa using h2)
    exact h.fresh i (h4.symm ▸ this)

/-- A Pauli flow of the open graph extends to the larger one. -/
theorem Ext.has (h : Ext og og' anc) (hv : og.Valid) {p : ℕ → Finset ℕ} {lt : ℕ → ℕ → Prop} (hp : IsPauliFlowOf og p lt) : HasPauliFlow og' := by
  classical
  obtain ⟨-, hinn, -, -, -, -⟩ := og.postInit_ok hv.post
  have hinn : ∀ i ∈ og.inputs, i ∈ og.nodes := fun i hi => hinn (by simpa using hi)
  set p' : ℕ → Finset ℕ := fun v => if v ∈ og.nodes then p v else og.inputs.toFinset.filter fun i => anc i = v with hp'
  have hpo : ∀ v ∈ og.nodes, p' v = p v := fun v hv => by simp [hp', hv]
  have hpn : ∀ i ∈ og.inputs, p' (anc i) = {i} := by
    intro i hi
    simp only [hp', h.fresh, if_false]
    ext j
    simp only [Finset.mem_filter, List.mem_toFinset, Finset.mem_singleton]
    constructor
    · rintro ⟨h1, h2⟩; exact h.inj _ h1 _ hi h2
    · rintro rfl; exact ⟨hi, rfl⟩
  have hsub : ∀ u ∈ og.nodes, u ∉ og.outputs → p u ⊆ og.nodes := fun u h1 h2 v hv => (hp.image u h1 h2 v hv).1
  have hlt : ∀ i ∈ og.inputs, ∀ v ∈ og.nodes, (anc i ∉ og.nodes ∧ v ∈ og.nodes) ∨ (anc i ∈ og.nodes ∧ v ∈ og.nodes ∧ lt (anc i) v) :=
    fun i _ v hv => Or.inl ⟨h.fresh i, hv⟩
  have hodd : ∀ u ∈ og.nodes, u ∉ og.outputs → ∀ i ∈ og.inputs, ¬ og'.InOdd (p u) (anc i) := by
    intro u h1 h2 i hi ho
    rw [h.odd_new hv (hsub u h1 h2) hi] at ho
    exact (hp.image u h1 h2 i ho).2 hi
  refine ⟨p', fun u v => (u ∉ og.nodes ∧ v ∈ og.nodes) ∨ (u ∈ og.nodes ∧ v ∈ og.nodes ∧ lt u v), ?_⟩
  exact {
    irrefl := by
      rintro a (⟨h1, h2⟩ | ⟨-, -, h3⟩)
      · exact h1 h2
      · exact hp.irrefl a h3
    trans := by
      rintro a b c (⟨h1, h2⟩ | ⟨h1, h2, h3⟩) (⟨h4, h5⟩ | ⟨h4, h5, h6⟩)
      · exact absurd h2 h4
      · exact Or.inl ⟨h1, h5⟩
      · exact absurd h2 h4
      · exact Or.inr ⟨h1, h5, hp.trans _ _ _ h3 h6⟩
    image := by
      intro u hu ho v hw
      rw [h.outputs] at ho
      rw [h.inputs]
      rcases (h.mem_nodes u).1 hu with hu | ⟨i, hi, rfl⟩
      · rw [hpo u hu] at hw
        have := (hp.image u hu ho v hw).1
        refine ⟨(h.mem_nodes v).2 (Or.inl this), fun hm => ?_⟩
        obtain ⟨j, -, rfl⟩ := List.mem_map.1 hm
        exact h.fresh j this
      · rw [hpn i hi, Finset.mem_singleton] at hw
        subst hw
        refine ⟨(h.mem_nodes v).2 (Or.inl (hinn _ hi)), fun hm => ?_⟩
        obtain ⟨j, -, rfl⟩ := List.mem_map.1 hm
        exact h.fresh j (hinn _ hi)
    p1 := by
      intro u hu ho v hw hne h1 h2
      rw [h.outputs] at ho
      rcases (h.mem_nodes u).1 hu with hu | ⟨i, hi, rfl⟩
      · rw [hpo u hu] at hw
        have hvn := (hp.image u hu ho v hw).1
        rw [h.label_old hvn] at h1 h2
        exact Or.inr ⟨hu, hvn, hp.p1 u hu ho v hw hne h1 h2⟩
      · rw [hpn i hi, Finset.mem_singleton] at hw
        subst hw
        exact hlt _ hi _ (hinn _ hi)
    p2 := by
      intro u hu ho v hvn hw hne h1 h2
      rw [h.outputs] at ho
      rcases (h.mem_nodes u).1 hu with hu | ⟨i, hi, rfl⟩
      · rw [hpo u hu] at hw
        rcases (h.mem_nodes v).1 hvn with hvn | ⟨j, hj, rfl⟩
        · rw [h.label_old hvn] at h1 h2
          rw [h.odd_old hv (hsub u hu ho) hvn] at hw
          exact Or.inr ⟨hu, hvn, hp.p2 u hu ho v hvn hw hne h1 h2⟩
        · exact absurd hw (hodd u hu ho j hj)
      · rw [hpn i hi] at hw
        rcases (h.mem_nodes v).1 hvn with hvn | ⟨j, hj, rfl⟩
        · exact hlt _ hi _ hvn
        · rw [h.odd_new hv (by simpa using hinn i hi) hj, Finset.mem_singleton] at hw
          subst hw; exact absurd rfl hne
    p3 := by
      intro u hu ho v hne hY hn
      rw [h.outputs] at ho
      have hvn : v ∈ og.nodes := by
        rcases (h.mem_nodes v).1 (label_node h.valid hY).1 with hvn | ⟨j, hj, rfl⟩
        · exact hvn
        · rw [h.label_new hj] at hY; simp at hY
      rcases (h.mem_nodes u).1 hu with hu | ⟨i, hi, rfl⟩
      · rw [hpo u hu, h.odd_old hv (hsub u hu ho) hvn]
        rw [h.label_old hvn] at hY
        exact hp.p3 u hu ho v hne hY fun hl => hn (Or.inr ⟨hu, hvn, hl⟩)
      · exact absurd (hlt i hi v hvn) hn
    p4 := by
      intro u hu ho hl
      rw [h.outputs] at ho
      rcases (h.mem_nodes u).1 hu with hu | ⟨i, hi, rfl⟩
      · rw [hpo u hu, h.odd_old hv (hsub u hu ho) hu]; exact hp.p4 u hu ho ((h.label_old hu _).1 hl)
      · rw [h.label_new hi] at hl; simp at hl
    p5 := by
      intro u hu ho hl
      rw [h.outputs] at ho
      rcases (h.mem_nodes u).1 hu with hu | ⟨i, hi, rfl⟩
      · rw [hpo u hu, h.odd_old hv (hsub u hu ho) hu]; exact hp.p5 u hu ho ((h.label_old hu _).1 hl)
      · rw [h.label_new hi] at hl; simp at hl
    p6 := by
      intro u hu ho hl
      rw [h.outputs] at ho
      rcases (h.mem_nodes u).1 hu with hu | ⟨i, hi, rfl⟩
      · rw [hpo u hu, h.odd_old hv (hsub u hu ho) hu]; exact hp.p6 u hu ho ((h.label_old hu _).1 hl)
      · rw [h.label_new hi] at hl; simp at hl
    p7 := by
      intro u hu ho hl
      rw [h.outputs] at ho
      rcases (h.mem_nodes u).1 hu with hu | ⟨i, hi, rfl⟩
      · rw [hpo u hu, h.odd_old hv (hsub u hu ho) hu]; exact hp.p7 u hu ho ((h.label_old hu _).1 hl)
      · rw [hpn i hi, h.odd_new hv (by simpa using hinn i hi) hi]; simp
    p8 := by
      intro u hu ho hl
      rw [h.outputs] at ho
      rcases (h.mem_nodes u).1 hu with hu | ⟨i, hi, rfl⟩
      · rw [hpo u hu]; exact hp.p8 u hu ho ((h.label_old hu _).1 hl)
      · rw [h.label_new hi] at hl; simp at hl
    p9 := by
      intro u hu ho hl
      rw [h.outputs] at ho
      rcases (h.mem_nodes u).1 hu with hu | ⟨i, hi, rfl⟩
      · rw [hpo u hu, h.odd_old hv (hsub u hu ho) hu]; exact hp.p9 u hu ho ((h.label_old hu _).1 hl)
      · rw [h.label_new hi] at hl; simp at hl }

theorem Ext.bit_odd (h : Ext og og' anc) (hv : og.Valid) {S : Finset ℕ} (hS : S ⊆ og.nodes) {v : ℕ} (hw : v ∈ og.nodes) :
    bit (og'.oddSet S) v = bit (og.oddSet S) v := by
  unfold bit
  rw [decide_eq_decide, OpenGraph.mem_oddSet, OpenGraph.mem_oddSet, h.odd_old hv hS hw]

theorem Ext.isMinus_eq (h : Ext og og' anc) (v : ℕ) : isMinus og' v = (!decide (v ∈ og.inputs.map anc) && isMinus og v) := by
  unfold isMinus
  rw [h.meas]
  by_cases hm : v ∈ og.inputs.map anc
  · rw [if_pos hm]; simp only [hm]; simp
  · rw [if_neg hm]; simp [hm]

theorem Ext.signOf_eq (h : Ext og og' anc) (hv : og.Valid) (hloop : ∀ v, (v, v) ∉ og.edges) {S : Finset ℕ} (hS : S ⊆ og.nodes) :
    signOf og' S = signOf og S := by
  have hS' : S ⊆ og'.nodes := fun v hm => (h.mem_nodes v).2 (Or.inl (hS hm))
  unfold signOf
  rw [stabSign_eq hv (fun e he hh => hloop e.1 (by rw [show (e.1, e.1) = e from Prod.ext rfl hh]; exact he)) hS,
    stabSign_eq h.valid (fun e he hh => h.noloop hv hloop e.1 (by rw [show (e.1, e.1) = e from Prod.ext rfl hh]; exact he)) hS']
  have e1 : (og'.edges.filter fun e => decide (e.1 ∈ S ∧ e.2 ∈ S)) = og.edges.filter fun e => decide (e.1 ∈ S ∧ e.2 ∈ S) := by
    rw [h.edges, List.filter_append]
    refine (congrArg (_ ++ ·) (List.filter_eq_nil_iff.2 ?_)).trans (List.append_nil _)
    intro e he
    obtain ⟨i, -, rfl⟩ := List.mem_map.1 he
    simp only [decide_eq_true_eq, not_and]
    exact fun _ hm => h.fresh i (hS hm)
  have e2 : S ∩ og'.oddSet S = S ∩ og.oddSet S := by
    ext v
    simp only [Finset.mem_inter, OpenGraph.mem_oddSet]
    exact and_congr_right fun hm => h.odd_old hv hS (hS hm)
  rw [e1, e2]
  congr 1
  rw [xorl_finset (L := og.nodes.sort (· ≤ ·)) (l := og'.nodes.sort (· ≤ ·)) (Finset.sort_nodup _ _) (Finset.sort_nodup _ _) (fun x => decide (x ∈ og.nodes))]
  · apply xorl_congr
    intro w hw
    rw [Finset.mem_sort] at hw
    rw [h.isMinus_eq]
    rcases (h.mem_nodes w).1 hw with hn | ⟨i, hi, rfl⟩
    · have : w ∉ og.inputs.map anc := by
        intro hm
        obtain ⟨i, -, rfl⟩ := List.mem_map.1 hm
        exact h.fresh i hn
      rw [h.bit_odd hv hS hn]
      simp [hn, this]
    · have : anc i ∈ og.inputs.map anc := List.mem_map.2 ⟨i, hi, rfl⟩
      have hf := h.fresh i
      simp only [this, hf]
      simp
  · intro x
    simp only [Finset.mem_sort, decide_eq_true_eq]
    exact ⟨fun hx => ⟨(h.mem_nodes x).2 (Or.inl hx), hx⟩, fun hx => hx.2⟩

theorem Ext.psSpec (h : Ext og og' anc) (hv : og.Valid) (hloop : ∀ v, (v, v) ∉ og.edges) {S : Finset ℕ} (hS : S ⊆ og.nodes) {lb : Label} {p : PauliString}
    (hp : PsSpec og' S lb p) : PsSpec og S lb p := by
  obtain ⟨-, -, ho, -, -, -⟩ := og.postInit_ok hv.post
  refine ⟨hp.valid, by rw [hp.dim, h.outputs], fun v hm => ?_, by rw [hp.sign, h.signOf_eq hv hloop hS]⟩
  have := hp.mat v (h.outputs.symm ▸ hm)
  rw [h.outputs] at this
  rw [this, pMat, pMat, h.bit_odd hv hS (ho (by simpa using hm))]

/-- The correction set of a new node. -/
theorem Ext.set_spec (h : Ext og og' anc) (hv : og.Valid) {f' : Flow} (hog : f'.og = og') (hf : IsPauliFlow f') (hfoc : f'.Focused) {i : ℕ} (hi : i ∈ og.inputs) {S : Finset ℕ}
    (hS : f'.corr.get? (anc i) = some S) : S ⊆ og.nodes ∧ i ∈ S ∧ (∀ v ∈ S, v ∈ og.inputs → v = i) ∧ FocusedOn og S (fun _ => False) := by
  subst hog
  have hsub : S ⊆ og.nodes := by
    intro v hm
    obtain ⟨h1, h2⟩ := hf.image _ _ _ hS hm
    rcases (h.mem_nodes v).1 h1 with h1 | ⟨j, hj, rfl⟩
    · exact h1
    · rw [h.inputs] at h2
      exact absurd (List.mem_map.2 ⟨j, hj, rfl⟩) h2
  refine ⟨hsub, ?_, ?_, ?_⟩
  · exact (h.odd_new hv hsub hi).1 (hf.p7 _ _ hS ((h.label_new hi _).2 rfl))
  · intro v hm hin
    by_contra hne
    have h1 := (hfoc _ _ hS (anc v) (.axis .X) (fun he => hne (h.inj _ hin _ hi he)) ((h.label_new hin _).2 rfl)).2.1
      ((h.odd_new hv hsub hin).2 hm)
    simp at h1
  · intro w hw ho _ m hm
    have hne : w ≠ anc i := by rintro rfl; exact h.fresh i hw
    obtain ⟨h1, h2, h3⟩ := hfoc _ _ hS w m.toPlaneOrAxis hne ((h.label_old hw _).2 ⟨m, hm, rfl⟩)
    rw [h.odd_old hv hsub hw] at h2 h3
    refine ⟨fun hb => h1 (by simpa [bit] using hb), fun hb => h2 ?_, fun hb => ?_⟩
    · rw [← OpenGraph.mem_oddSet]; simpa [bit] using hb
    · unfold bit
      rw [decide_eq_decide, OpenGraph.mem_oddSet]
      exact h3 hb

theorem Ext.wMap_X (h : Ext og og' anc) (hv : og.Valid) (hloop : ∀ v, (v, v) ∉ og.edges) {f' : Flow} (hog : f'.og = og') (hf : IsPauliFlow f') (hfoc : f'.Focused)
    {i k : ℕ} (hk : og.inputs[k]? = some i) {S : Finset ℕ} (hS : f'.corr.get? (anc i) = some S) {p : PauliString} (hp : PsSpec og' S (.axis .X) p) (ψ : QState) :
    wMap og [] (op1 Ops.X k ψ) = p.op (wMap og [] ψ) := by
  have hi := List.mem_of_getElem? hk
  obtain ⟨h1, h2, h3, h4⟩ := h.set_spec hv hog hf hfoc hi hS
  have hp := h.psSpec hv hloop h1 hp
  obtain ⟨-, -, -, hin, -, -⟩ := og.postInit_ok hv.post
  unfold wMap
  rw [onWires_op1 hin hk, tMap_X hv (fun e he hh => hloop e.1 (by rw [show (e.1, e.1) = e from Prod.ext rfl hh]; exact he)) h4
    (by intro w hw; simp at hw) h2 hi h3 h1 (inputs_absent _ _)]
  exact offWires_dMat hv hp.dim hp.mat (by rw [hp.sign]; simp) _

/-- `clifford_x_map_from_focused_flow`: it succeeds on an open graph with a Pauli flow, and gives the images of the `X`. -/
theorem xMapOf_spec {f : Flow} (hf : IsPauliFlow f) (hv : f.og.Valid) (hloop : ∀ v, (v, v) ∉ f.og.edges) (hne : f.og.nodes ≠ ∅) {ord : SetOrd} (hord : ord.Valid)
    {mmo : MulOrd} (hmmo : mmo.Valid) : ∃ xs, xMapOf f ord mmo = .ok xs ∧ xs.length = f.og.inputs.length ∧
      ∀ k p, xs[k]? = some p → p.Valid ∧ p.dim = f.og.outputs.length ∧ ∀ ψ, wMap f.og [] (op1 Ops.X k ψ) = p.op (wMap f.og [] ψ) := by
  obtain ⟨og', d, anc, h1, h2, h3⟩ := extendInput_spec hv hne
  obtain ⟨p, lt, hp⟩ := hf.has
  have hl' := h2.noloop hv hloop
  rcases C28_to_pauliflow og' h2.valid hl' ord hord mmo hmmo with ⟨f', h4, h5, h6⟩ | ⟨-, h⟩
  swap
  · exact absurd (h2.has hv hp) h
  obtain ⟨h7, -⟩ := C28_focused og' h2.valid hl' ord hord mmo hmmo f' (Or.inl h4)
  have hnode : ∀ i ∈ f.og.inputs, anc i ∈ f'.og.nodes ∧ anc i ∉ f'.og.outputs := by
    intro i hi
    rw [h5]
    refine ⟨(h2.mem_nodes _).2 (Or.inr ⟨i, hi, rfl⟩), fun hm => ?_⟩
    rw [h2.outputs] at hm
    exact h2.fresh i ((f.og.postInit_ok hv.post).2.2.1 (by simpa using hm))
  have hq : ∀ i ∈ f.og.inputs, ∃ S q, f'.corr.get? (anc i) = some S ∧ extractionPs f' ord (anc i) = .ok q ∧ PsSpec og' S (.axis .X) q := by
    intro i hi
    obtain ⟨S, hS⟩ := (h6.domain _).2 (hnode i hi)
    obtain ⟨q, e1, e2, e3, e4, e5⟩ := extractionPs_spec (f := f') (h5 ▸ h2.valid) (fun e he hh => (h5 ▸ hl') e.1 (by rw [show (e.1, e.1) = e from Prod.ext rfl hh]; exact he)) hord hS
      (sub_nodes h6.toFlowBase hS) (lb := .axis .X) (h5 ▸ (h2.label_new hi _).2 rfl)
    exact ⟨S, q, hS, e1, h5 ▸ ⟨e2, e3, e4, e5⟩⟩
  haveI : Nonempty PauliString := ⟨⟨0, [], .plus⟩⟩
  choose! S q hS hq hspec using hq
  have hd : ∀ L : List ℕ, (∀ i ∈ L, i ∈ f.og.inputs) → dictOf (extractionPs f' ord) (L.map anc) = .ok (L.map fun i => (anc i, q i)) := by
    intro L
    induction L with
    | nil => intro _; rfl
    | cons a L ih =>
      intro hL
      have ha := hL a (by simp)
      simp only [List.map_cons, dictOf, hq a ha, ih fun i hi => hL i (by simp [hi]), bind, Except.bind, pure, Except.pure]
  have hget : ∀ L : List ℕ, (∀ i ∈ L, i ∈ f.og.inputs) → ∀ i ∈ L, PyDict.get? (L.map fun i => (anc i, q i)) (anc i) = some (q i) := by
    intro L
    induction L with
    | nil => intro _ i hi; simp at hi
    | cons a L ih =>
      intro hL i hi
      by_cases h : anc a = anc i
      · have := h2.inj _ (hL a (by simp)) _ (hL i hi) h
        subst this
        simp [PyDict.get?]
      · have hi' : i ∈ L := by
          rcases List.mem_cons.1 hi with rfl | hi
          · exact absurd rfl h
          · exact hi
        rw [List.map_cons, PyDict.get?, if_neg h]
        exact ih (fun i hi => hL i (by simp [hi])) i hi'
  have hlist : ∀ L : List ℕ, (∀ i ∈ L, i ∈ f.og.inputs) → ∀ D : PyDict ℕ PauliString, (∀ i ∈ L, D.get? (anc i) = some (q i)) →
      listOf (fun i => do lookup D (← lookup d i)) L = .ok (L.map q) := by
    intro L
    induction L with
    | nil => intro _ D _; rfl
    | cons a L ih =>
      intro hL D hD
      have ha := hL a (by simp)
      have hD' := hD a (by simp)
      have e1 : lookup d a = .ok (anc a) := by unfold lookup; rw [h3 a ha]
      have e2 : lookup D (anc a) = .ok (q a) := by unfold lookup; rw [hD']
      have := ih (fun i hi => hL i (by simp [hi])) D (fun i hi => hD i (by simp [hi]))
      simp only [bind, Except.bind] at this
      simp only [listOf, e1, e2, bind, Except.bind, pure, Except.pure, this, List.map_cons]
  refine ⟨f.og.inputs.map q, ?_, by simp, ?_⟩
  · unfold xMapOf
    simp only [h1, h4, bind, Except.bind]
    rw [h2.inputs, hd _ fun i hi => hi]
    have := hlist _ (fun i hi => hi) _ (hget f.og.inputs fun i hi => hi)
    simp only [bind, Except.bind] at this
    exact this
  · intro k p' hk
    rw [List.getElem?_map] at hk
    obtain ⟨i, hki, rfl⟩ := Option.map_eq_some_iff.1 hk
    have hi := List.mem_of_getElem? hki
    have hs := hspec i hi
    exact ⟨hs.valid, by rw [hs.dim, h2.outputs], h2.wMap_X hv hloop h5 h6 h7 hki (hS i hi) hs⟩

end

end Extract
end Graphix
