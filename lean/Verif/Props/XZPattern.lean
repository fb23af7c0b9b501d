import Verif.Props.FlowCheck
import Verif.Proofs.Determinism
import Verif.Proofs.Rewrite

/-!
# C31: XZ-corrections give runnable patterns
-/

namespace Graphix

/-- Total measurement orders compatible with the partial order: every measured node once, and no node measured after a
node that it precedes. -/
structure LinearExtension (og : OpenGraph) (layers : List (Finset ℕ)) (order : List ℕ) : Prop where
  nodup : order.Nodup
  mem : ∀ u, u ∈ order ↔ u ∈ og.nodes ∧ u ∉ og.outputs
  mono : order.Pairwise fun u v => ¬ Before layers v u

theorem LayersOk.before_iff {og : OpenGraph} {layers : List (Finset ℕ)} (hl : LayersOk og layers) {u v i j : ℕ}
    {K L : Finset ℕ} (hi : layers[i]? = some K) (hj : layers[j]? = some L) (hu : u ∈ K) (hv : v ∈ L) :
    Before layers u v ↔ j < i := by
  constructor
  · rintro ⟨i', j', K', L', h1, h2, h3, h4, h5⟩
    have := index_unique hl.disjoint hi h1 hu h4
    have := index_unique hl.disjoint hj h2 hv h5
    omega
  · intro h; exact ⟨i, j, K, L, hi, hj, h, hu, hv⟩

theorem LayersOk.pairwise {og : OpenGraph} {layers : List (Finset ℕ)} (hl : LayersOk og layers) :
    layers.Pairwise fun L K => ∀ x ∈ K, ∀ y ∈ L, ¬ Before layers y x := by
  rw [List.pairwise_iff_getElem]
  intro i j hi hj hij x hx y hy hb
  have := (hl.before_iff (i := i) (j := j) (by simp [hi]) (by simp [hj]) hy hx).1 hb
  omega

theorem measuredLayers_eq (og : OpenGraph) (layers : List (Finset ℕ)) :
    ∃ k, og.measuredLayers layers = layers.drop k ∧ (k = 0 ∧ og.outputs = [] ∨ k = 1 ∧ og.outputs ≠ []) := by
  unfold OpenGraph.measuredLayers
  by_cases h : og.outputs = []
  · exact ⟨0, by simp [h], Or.inl ⟨rfl, h⟩⟩
  · exact ⟨1, by simp [h], Or.inr ⟨rfl, h⟩⟩

theorem LayersOk.mem_measured {og : OpenGraph} {layers : List (Finset ℕ)} (hl : LayersOk og layers)
    (ho : og.outputs.toFinset ⊆ og.nodes) (u : ℕ) :
    (∃ L ∈ og.measuredLayers layers, u ∈ L) ↔ u ∈ og.nodes ∧ u ∉ og.outputs := by
  unfold OpenGraph.measuredLayers
  by_cases h : og.outputs = []
  · simp [h, hl.cover]
  · simp only [h, ne_eq, not_false_eq_true, if_true]
    have h0 := hl.outputs h
    cases layers with
    | nil => simp at h0
    | cons O ls =>
      simp only [List.head?_cons, Option.some.injEq] at h0
      subst h0
      simp only [List.drop_succ_cons, List.drop_zero]
      have hd := (List.pairwise_cons.1 hl.disjoint).1
      constructor
      · rintro ⟨L, hL, hu⟩
        refine ⟨(hl.cover u).2 ⟨L, List.mem_cons_of_mem _ hL, hu⟩, fun hmem => ?_⟩
        exact Finset.disjoint_left.1 (hd L hL) (List.mem_toFinset.2 hmem) hu
      · rintro ⟨h1, h2⟩
        obtain ⟨L, hL, hu⟩ := (hl.cover u).1 h1
        rcases List.mem_cons.1 hL with rfl | hL
        · exact absurd (List.mem_toFinset.1 hu) h2
        · exact ⟨L, hL, hu⟩

/-- `v` is in a layer before that of `u` in the list. -/
def EarlierIn (ls : List (Finset ℕ)) (v u : ℕ) : Prop :=
  ∃ (i j : ℕ) (K L : Finset ℕ), ls[i]? = some K ∧ ls[j]? = some L ∧ i < j ∧ v ∈ K ∧ u ∈ L

theorem earlierIn_cons_of_mem {L : Finset ℕ} {ls : List (Finset ℕ)} {v u : ℕ} (h : EarlierIn ls v u) :
    EarlierIn (L :: ls) v u := by
  obtain ⟨i, j, K, M, h1, h2, h3, h4⟩ := h
  exact ⟨i + 1, j + 1, K, M, by simpa using h1, by simpa using h2, by omega, h4⟩

theorem isCompatibleLoop_iff (nodes : List ℕ) (ls : List (Finset ℕ)) (hd : ls.Pairwise Disjoint) :
    XZCorrections.isCompatibleLoop nodes ls = true ↔
      (∀ n ∈ nodes, n ∈ unionL ls) ∧ nodes.Pairwise fun u v => ¬ EarlierIn ls v u := by
  induction nodes, ls using XZCorrections.isCompatibleLoop.induct with
  | case1 ls => simp [XZCorrections.isCompatibleLoop]
  | case2 n ns =>
    rw [XZCorrections.isCompatibleLoop]
    simp only [Bool.false_eq_true, false_iff]
    intro h; have := h.1 n (by simp); simp at this
  | case3 n ns L ls hn ih =>
    rw [XZCorrections.isCompatibleLoop, if_pos hn, ih hd, List.forall_mem_cons, List.pairwise_cons]
    constructor
    · rintro ⟨h1, h2⟩
      refine ⟨⟨by simp [hn], h1⟩, ?_, h2⟩
      rintro v hv ⟨i, j, K, M, e1, e2, e3, e4, e5⟩
      have := index_unique hd (i := 0) (K := L) (by simp) e2 hn e5
      omega
    · rintro ⟨⟨-, h1⟩, -, h2⟩; exact ⟨h1, h2⟩
  | case4 n ns L ls hn ih =>
    rw [XZCorrections.isCompatibleLoop, if_neg hn, ih (List.pairwise_cons.1 hd).2]
    constructor
    · rintro ⟨h1, h2⟩
      have hnd : ∀ m ∈ n :: ns, m ∉ L := by
        intro m hm hmL
        obtain ⟨K, hK, hmK⟩ := mem_unionL.1 (h1 m hm)
        exact Finset.disjoint_left.1 ((List.pairwise_cons.1 hd).1 K hK) hmL hmK
      refine ⟨fun m hm => by simp [h1 m hm], ?_⟩
      refine List.Pairwise.imp_of_mem ?_ h2
      rintro u v hu hv hnot ⟨i, j, K, M, e1, e2, e3, e4, e5⟩
      apply hnot
      cases i with
      | zero => simp at e1; subst e1; exact absurd e4 (hnd v hv)
      | succ i =>
        cases j with
        | zero => omega
        | succ j => exact ⟨i, j, K, M, by simpa using e1, by simpa using e2, by omega, e4, e5⟩
    · rintro ⟨h1, h2⟩
      have hnl : n ∈ unionL ls := by simpa [hn] using h1 n (by simp)
      refine ⟨?_, h2.imp fun hnot he => hnot (earlierIn_cons_of_mem he)⟩
      intro m hm
      rcases List.mem_cons.1 hm with rfl | hm'
      · exact hnl
      · have := h1 m hm
        rw [unionL_cons, Finset.mem_union] at this
        rcases this with hmL | h
        · exfalso
          obtain ⟨K, hK, hnK⟩ := mem_unionL.1 hnl
          obtain ⟨k, hk⟩ := List.mem_iff_getElem?.1 hK
          exact (List.pairwise_cons.1 h2).1 m hm' ⟨0, k + 1, L, K, by simp, by simpa using hk, by omega, hmL, hnK⟩
        · exact h

theorem earlierIn_reverse_iff {og : OpenGraph} {layers : List (Finset ℕ)} (hl : LayersOk og layers) {u v : ℕ}
    (hu : ∃ L ∈ og.measuredLayers layers, u ∈ L) (hv : ∃ L ∈ og.measuredLayers layers, v ∈ L) :
    EarlierIn (og.measuredLayers layers).reverse v u ↔ Before layers v u := by
  obtain ⟨k, hk, -⟩ := measuredLayers_eq og layers
  rw [hk] at hu hv ⊢
  obtain ⟨L, hL, huL⟩ := hu
  obtain ⟨K, hK, hvK⟩ := hv
  obtain ⟨i, hi⟩ := List.mem_iff_getElem?.1 hL
  obtain ⟨j, hj⟩ := List.mem_iff_getElem?.1 hK
  have hi' := hi; have hj' := hj
  rw [List.getElem?_drop] at hi' hj'
  rw [hl.before_iff hj' hi' hvK huL]
  have hdd : (layers.drop k).reverse.Pairwise Disjoint := by
    rw [List.pairwise_reverse]
    exact (hl.disjoint.drop).imp fun h => h.symm
  have hlen1 : i < (layers.drop k).length := (List.getElem?_eq_some_iff.1 hi).1
  have hlen2 : j < (layers.drop k).length := (List.getElem?_eq_some_iff.1 hj).1
  have ri : (layers.drop k).reverse[(layers.drop k).length - 1 - i]? = some L := by
    rw [List.getElem?_reverse (by omega), ← hi]; congr 1; omega
  have rj : (layers.drop k).reverse[(layers.drop k).length - 1 - j]? = some K := by
    rw [List.getElem?_reverse (by omega), ← hj]; congr 1; omega
  constructor
  · rintro ⟨a, b, K', L', e1, e2, e3, e4, e5⟩
    have := index_unique hdd rj e1 hvK e4
    have := index_unique hdd ri e2 huL e5
    omega
  · intro h
    exact ⟨_, _, K, L, rj, ri, by omega, hvK, huL⟩

/-- C31: when some node is measured, `is_compatible` accepts exactly the linear extensions of the partial order. -/
theorem C31_is_compatible (xz : XZCorrections) (hv : xz.og.Valid) (hl : LayersOk xz.og xz.layers)
    (hne : ∃ u ∈ xz.og.nodes, u ∉ xz.og.outputs) (order : List ℕ) :
    ∃ b, xz.isCompatible order = .ok b ∧ (b = true ↔ LinearExtension xz.og xz.layers order) := by
  obtain ⟨hm, hi, ho, -, -, -⟩ := xz.og.postInit_ok hv.post
  unfold XZCorrections.isCompatible
  simp only []
  by_cases h1 : order.toFinset = xz.og.nodes \ xz.og.outputs.toFinset
  · rw [if_neg (not_not.2 h1)]
    by_cases h2 : order.length = (xz.og.nodes \ xz.og.outputs.toFinset).card
    · rw [if_neg (not_not.2 h2)]
      have hnd : order.Nodup := nodup_of_card (by rw [h1, h2])
      have hmem : ∀ u, u ∈ order ↔ u ∈ xz.og.nodes ∧ u ∉ xz.og.outputs := by
        intro u; rw [← List.mem_toFinset, h1]; simp
      obtain ⟨u, hu, huo⟩ := hne
      obtain ⟨L, hL, -⟩ := (hl.mem_measured ho u).2 ⟨hu, huo⟩
      have hne' : (xz.og.measuredLayers xz.layers).reverse ≠ [] := by
        intro h; rw [List.reverse_eq_nil_iff] at h; rw [h] at hL; simp at hL
      obtain ⟨M, Ms, hMs⟩ := List.exists_cons_of_ne_nil hne'
      rw [hMs]
      refine ⟨_, rfl, ?_⟩
      rw [← hMs]
      have hdd : (xz.og.measuredLayers xz.layers).reverse.Pairwise Disjoint := by
        obtain ⟨k, hk, -⟩ := measuredLayers_eq xz.og xz.layers
        rw [hk, List.pairwise_reverse]
        exact (hl.disjoint.drop).imp fun h => h.symm
      rw [isCompatibleLoop_iff _ _ hdd]
      have hpw : (order.Pairwise fun u v => ¬ EarlierIn (xz.og.measuredLayers xz.layers).reverse v u) ↔
          order.Pairwise fun u v => ¬ Before xz.layers v u := by
        constructor
        · intro h
          refine List.Pairwise.imp_of_mem ?_ h
          intro u v hu hv hnot hb
          exact hnot ((earlierIn_reverse_iff hl ((hl.mem_measured ho u).2 ((hmem u).1 hu))
            ((hl.mem_measured ho v).2 ((hmem v).1 hv))).2 hb)
        · intro h
          refine List.Pairwise.imp_of_mem ?_ h
          intro u v hu hv hnot hb
          exact hnot ((earlierIn_reverse_iff hl ((hl.mem_measured ho u).2 ((hmem u).1 hu))
            ((hl.mem_measured ho v).2 ((hmem v).1 hv))).1 hb)
      rw [hpw]
      constructor
      · rintro ⟨-, h⟩; exact ⟨hnd, hmem, h⟩
      · intro h
        refine ⟨fun n hn => ?_, h.mono⟩
        rw [unionL_reverse, mem_unionL]
        exact (hl.mem_measured ho n).2 ((hmem n).1 hn)
    · rw [if_pos h2]
      refine ⟨false, rfl, ?_⟩
      simp only [Bool.false_eq_true, false_iff]
      intro h
      apply h2
      rw [← h1, List.toFinset_card_of_nodup h.nodup]
  · rw [if_pos h1]
    refine ⟨false, rfl, ?_⟩
    simp only [Bool.false_eq_true, false_iff]
    intro h
    apply h1
    ext u; simp [h.mem]

/-- C31, the case left out: without measured nodes the only order is the empty one, and `is_compatible` raises
`IndexError` on it instead of accepting it. -/
theorem C31_is_compatible_empty_raises (xz : XZCorrections) (hv : xz.og.Valid) (hl : LayersOk xz.og xz.layers)
    (hne : ¬ ∃ u ∈ xz.og.nodes, u ∉ xz.og.outputs) :
    LinearExtension xz.og xz.layers [] ∧ xz.isCompatible [] = .error .indexError := by
  obtain ⟨hm, hi, ho, -, -, -⟩ := xz.og.postInit_ok hv.post
  push Not at hne
  have hz : xz.og.nodes \ xz.og.outputs.toFinset = ∅ := by
    ext u; simp only [Finset.mem_sdiff, List.mem_toFinset, Finset.notMem_empty, iff_false]
    exact fun h => h.2 (hne u h.1)
  refine ⟨⟨by simp, fun u => ?_, by simp⟩, ?_⟩
  · simp only [List.not_mem_nil, false_iff]
    exact fun h => h.2 (hne u h.1)
  · unfold XZCorrections.isCompatible
    simp only [hz, List.toFinset_nil, ne_eq, not_true_eq_false, if_false, List.length_nil, Finset.card_empty]
    have hml : xz.og.measuredLayers xz.layers = [] := by
      cases h : xz.og.measuredLayers xz.layers with
      | nil => rfl
      | cons L ls =>
        exfalso
        obtain ⟨k, hk, -⟩ := measuredLayers_eq xz.og xz.layers
        have hmem : L ∈ xz.og.measuredLayers xz.layers := by rw [h]; simp
        obtain ⟨u, hu⟩ := hl.nonempty L (by rw [hk] at hmem; exact List.mem_of_mem_drop hmem)
        have := (hl.mem_measured ho u).1 ⟨L, hmem, hu⟩
        exact this.2 (hne u this.1)
    rw [hml]
    rfl

/-- C31: `generate_total_measurement_order` returns a linear extension. -/
theorem C31_total_order (xz : XZCorrections) (hv : xz.og.Valid) (hl : LayersOk xz.og xz.layers) (ord : SetOrd)
    (hord : ord.Valid) :
    ∃ order, xz.generateTotalMeasurementOrder ord = .ok order ∧ LinearExtension xz.og xz.layers order := by
  obtain ⟨hm, hi, ho, -, -, -⟩ := xz.og.postInit_ok hv.post
  obtain ⟨k, hk, -⟩ := measuredLayers_eq xz.og xz.layers
  have hmem : ∀ u, u ∈ (xz.og.measuredLayers xz.layers).reverse.flatMap (ord 0 0) ↔ u ∈ xz.og.nodes ∧ u ∉ xz.og.outputs := by
    intro u
    rw [← hl.mem_measured ho u]
    simp [List.mem_flatMap, (hord _ _ _).2]
  refine ⟨(xz.og.measuredLayers xz.layers).reverse.flatMap (ord 0 0), ?_, ?_, hmem, ?_⟩
  · unfold XZCorrections.generateTotalMeasurementOrder
    simp only []
    rw [if_neg]
    rw [not_not]
    ext u; rw [List.mem_toFinset, hmem]; simp
  · rw [List.nodup_flatMap]
    refine ⟨fun L _ => (hord _ _ _).1, ?_⟩
    rw [hk, List.pairwise_reverse]
    refine (hl.disjoint.drop).imp ?_
    intro L K h
    rw [Function.onFun, List.disjoint_left]
    intro x hx hy
    exact Finset.disjoint_left.1 h (((hord _ _ _).2 x).1 hy) (((hord _ _ _).2 x).1 hx)
  · rw [List.pairwise_flatMap]
    constructor
    · intro L hL
      rw [List.mem_reverse] at hL
      obtain ⟨i, hi⟩ := List.mem_iff_getElem?.1 (by rw [hk] at hL; exact List.mem_of_mem_drop hL)
      have : ∀ x ∈ ord 0 0 L, ∀ y ∈ ord 0 0 L, ¬ Before xz.layers y x := by
        intro x hx y hy hb
        have := (hl.before_iff hi hi (((hord _ _ _).2 y).1 hy) (((hord _ _ _).2 x).1 hx)).1 hb
        omega
      exact List.pairwise_of_forall_mem_list this
    · rw [hk, List.pairwise_reverse]
      refine (hl.pairwise.drop).imp ?_
      intro L K h x hx y hy
      exact h x (((hord _ _ _).2 x).1 hx) y (((hord _ _ _).2 y).1 hy)

/-- Runnable after the commands `a`. -/
def RunnableFrom (inputs : List ℕ) (a b : List Command) : Prop :=
  ∀ pre cmd post, b = pre ++ cmd :: post → Allowed inputs (a ++ pre) cmd

theorem runnableFrom_nil_iff {inputs : List ℕ} {b : List Command} : RunnableFrom inputs [] b ↔ Runnable inputs b := Iff.rfl

theorem RunnableFrom.nil {inputs : List ℕ} {a : List Command} : RunnableFrom inputs a [] := by
  intro pre cmd post h; simp at h

theorem RunnableFrom.cons {inputs : List ℕ} {a b : List Command} {c : Command} (h : Allowed inputs a c)
    (h' : RunnableFrom inputs (a ++ [c]) b) : RunnableFrom inputs a (c :: b) := by
  intro pre cmd post he
  cases pre with
  | nil =>
    simp only [List.nil_append, List.cons.injEq] at he
    rw [List.append_nil, ← he.1]; exact h
  | cons x pre =>
    simp only [List.cons_append, List.cons.injEq] at he
    have := h' pre cmd post he.2
    rw [← he.1]; simpa using this

theorem RunnableFrom.append {inputs : List ℕ} {a b b' : List Command} (h : RunnableFrom inputs a b)
    (h' : RunnableFrom inputs (a ++ b) b') : RunnableFrom inputs a (b ++ b') := by
  induction b generalizing a with
  | nil => simpa using h'
  | cons c b ih =>
    rw [List.cons_append]
    refine RunnableFrom.cons (by simpa using h [] c b rfl) (ih ?_ (by simpa using h'))
    intro pre cmd post he
    have := h (c :: pre) cmd post (by rw [he]; simp)
    simpa using this

theorem blockOf_measured (meas xl zl) (us : List ℕ) :
    (us.flatMap (blockOf meas xl zl)).filterMap Command.measured? = us := by
  induction us with
  | nil => rfl
  | cons u us ih =>
    rw [List.flatMap_cons, List.filterMap_append, ih]
    have : (blockOf meas xl zl u).filterMap Command.measured? = [u] := by
      unfold blockOf
      rw [List.filterMap_cons_some (f := Command.measured?) (b := u) rfl, List.filterMap_append, List.filterMap_map, List.filterMap_map]
      have e1 : (Command.measured? ∘ fun k => Command.Z k {u}) = fun _ => none := rfl
      have e2 : (Command.measured? ∘ fun k => Command.X k {u}) = fun _ => none := rfl
      rw [e1, e2]; simp
    rw [this]; rfl

theorem blockOf_prepared (meas xl zl) (us : List ℕ) :
    (us.flatMap (blockOf meas xl zl)).filterMap Command.prepared? = [] := by
  rw [List.filterMap_eq_nil_iff]
  intro c hc
  obtain ⟨u, -, hc⟩ := List.mem_flatMap.1 hc
  unfold blockOf at hc
  rcases List.mem_cons.1 hc with rfl | hc
  · rfl
  · rcases List.mem_append.1 hc with hc | hc <;> obtain ⟨k, -, rfl⟩ := List.mem_map.1 hc <;> rfl

theorem patternCmds_runnable {og : OpenGraph} (hv : og.Valid) {order ns : List ℕ} (hns : ns.Nodup)
    (hnm : ∀ n, n ∈ ns ↔ n ∈ og.nodes ∧ n ∉ og.inputs)
    (hnd : order.Nodup) (hset : ∀ u, u ∈ order ↔ u ∈ og.nodes ∧ u ∉ og.outputs) {meas : ℕ → Measurement}
    {xl zl : ℕ → List ℕ} (hxn : ∀ u ∈ order, ∀ w ∈ xl u, w ∈ og.nodes) (hzn : ∀ u ∈ order, ∀ w ∈ zl u, w ∈ og.nodes)
    (hlater : ∀ pre u post, order = pre ++ u :: post → ∀ w, w ∈ xl u ∨ w ∈ zl u → w ∉ pre ∧ w ≠ u) :
    Runnable og.inputs (patternCmds ns og meas xl zl order) ∧
      ∀ n, n ∈ og.outputs ↔ Live og.inputs (patternCmds ns og meas xl zl order) n := by
  obtain ⟨hm, hi, ho, -, -, hcl⟩ := og.postInit_ok hv.post
  set N := ns.map (Command.N · PlanarState.plus) with hN
  set E := og.edges.map (fun e => Command.E e.1 e.2) with hE
  have hNp : ∀ l : List ℕ, (l.map (Command.N · PlanarState.plus)).filterMap Command.prepared? = l := by
    intro l; induction l with
    | nil => rfl
    | cons a l ih => rw [List.map_cons, List.filterMap_cons_some (f := Command.prepared?) (b := a) rfl, ih]
  have hNm : ∀ l : List ℕ, (l.map (Command.N · PlanarState.plus)).filterMap Command.measured? = [] := by
    intro l; rw [List.filterMap_eq_nil_iff]; intro c hc; obtain ⟨k, -, rfl⟩ := List.mem_map.1 hc; rfl
  have hEp : ∀ l : List (ℕ × ℕ), (l.map (fun e => Command.E e.1 e.2)).filterMap Command.prepared? = [] := by
    intro l; rw [List.filterMap_eq_nil_iff]; intro c hc; obtain ⟨k, -, rfl⟩ := List.mem_map.1 hc; rfl
  have hEm : ∀ l : List (ℕ × ℕ), (l.map (fun e => Command.E e.1 e.2)).filterMap Command.measured? = [] := by
    intro l; rw [List.filterMap_eq_nil_iff]; intro c hc; obtain ⟨k, -, rfl⟩ := List.mem_map.1 hc; rfl
  have hnodes : ∀ n, n ∈ og.inputs ++ ns ↔ n ∈ og.nodes := by
    intro n
    rw [List.mem_append, hnm]
    constructor
    · rintro (h | h)
      · exact hi (List.mem_toFinset.2 h)
      · exact h.1
    · intro h; by_cases h' : n ∈ og.inputs
      · exact Or.inl h'
      · exact Or.inr ⟨h, h'⟩
  -- liveness after the preparations and `d`, which prepares nothing
  have hlive : ∀ (d : List Command) (done : List ℕ) (n : ℕ), d.filterMap Command.prepared? = [] →
      d.filterMap Command.measured? = done → (Live og.inputs (N ++ d) n ↔ n ∈ og.nodes ∧ n ∉ done) := by
    intro d done n h1 h2
    unfold Live introduced measuredIn
    rw [List.filterMap_append, List.filterMap_append, hNp, hNm, h1, h2, List.append_nil, hnodes]
    simp
  have hmeas : ∀ (d : List Command), measuredIn (N ++ d) = d.filterMap Command.measured? := by
    intro d; unfold measuredIn; rw [List.filterMap_append, hNm]; rfl
  have hCp : (og.cliffords.map (fun kv => Command.C kv.1 kv.2)).filterMap Command.prepared? = [] := by
    rw [List.filterMap_eq_nil_iff]; intro c hc; obtain ⟨k, -, rfl⟩ := List.mem_map.1 hc; rfl
  have hCm : (og.cliffords.map (fun kv => Command.C kv.1 kv.2)).filterMap Command.measured? = [] := by
    rw [List.filterMap_eq_nil_iff]; intro c hc; obtain ⟨k, -, rfl⟩ := List.mem_map.1 hc; rfl
  constructor
  · rw [← runnableFrom_nil_iff]
    unfold patternCmds
    refine RunnableFrom.append ?_ (RunnableFrom.append ?_ (RunnableFrom.append ?_ ?_))
    · -- preparations
      intro pre cmd post he
      obtain ⟨l1, l2, hl, h1, h2⟩ := List.map_eq_append_iff.1 he
      cases l2 with
      | nil => simp at h2
      | cons a l2 =>
        simp only [List.map_cons, List.cons.injEq] at h2
        rw [← h2.1, ← h1]
        show a ∉ introduced og.inputs _
        unfold introduced
        rw [List.nil_append, hNp]
        rw [hl, List.nodup_append] at hns
        have ha : a ∈ ns := by rw [hl]; simp
        intro hmem
        rcases List.mem_append.1 hmem with h | h
        · exact ((hnm a).1 ha).2 h
        · exact hns.2.2 a h a (by simp) rfl
    · -- edges
      intro pre cmd post he
      obtain ⟨l1, l2, hl, h1, h2⟩ := List.map_eq_append_iff.1 he
      cases l2 with
      | nil => simp at h2
      | cons e l2 =>
        simp only [List.map_cons, List.cons.injEq] at h2
        rw [← h2.1, ← h1]
        have hem := hv.edge_mem e.1 e.2 (by rw [hl]; simp)
        rw [List.nil_append]
        exact ⟨(hlive _ [] _ (hEp l1) (hEm l1)).2 ⟨hem.1, by simp⟩, (hlive _ [] _ (hEp l1) (hEm l1)).2 ⟨hem.2, by simp⟩⟩
    · -- measurements and corrections
      have key : ∀ done us, order = done ++ us →
          RunnableFrom og.inputs (N ++ (E ++ done.flatMap (blockOf meas xl zl))) (us.flatMap (blockOf meas xl zl)) := by
        intro done us
        induction us generalizing done with
        | nil => intro _; exact RunnableFrom.nil
        | cons u us ih =>
          intro hsplit
          rw [List.flatMap_cons]
          have hu : u ∈ order := by rw [hsplit]; simp
          have hud : u ∉ done := by
            have := hnd; rw [hsplit, List.nodup_append] at this
            exact fun h => this.2.2 u h u (by simp) rfl
          have hlat := hlater done u us hsplit
          have hp0 : (E ++ done.flatMap (blockOf meas xl zl)).filterMap Command.prepared? = [] := by
            rw [List.filterMap_append, hEp, blockOf_prepared]; rfl
          have hm0 : (E ++ done.flatMap (blockOf meas xl zl)).filterMap Command.measured? = done := by
            rw [List.filterMap_append, hEm, blockOf_measured]; rfl
          refine RunnableFrom.append ?_ ?_
          · rw [show blockOf meas xl zl u = Command.M u (meas u) ∅ ∅ :: ((zl u).map (fun k => Command.Z k {u}) ++
              (xl u).map (fun k => Command.X k {u})) from rfl]
            refine RunnableFrom.cons ⟨(hlive _ done u hp0 hm0).2 ⟨((hset u).1 hu).1, hud⟩, by simp, by simp⟩ ?_
            intro pre cmd post he
            have hcmd : cmd ∈ (zl u).map (fun k => Command.Z k {u}) ++ (xl u).map (fun k => Command.X k {u}) := by
              rw [he]; simp
            have hpre : ∀ c ∈ pre, Command.prepared? c = none ∧ Command.measured? c = none := by
              intro c hc
              have : c ∈ (zl u).map (fun k => Command.Z k {u}) ++ (xl u).map (fun k => Command.X k {u}) := by
                rw [he]; simp [hc]
              rcases List.mem_append.1 this with hc | hc <;> obtain ⟨k, -, rfl⟩ := List.mem_map.1 hc <;> exact ⟨rfl, rfl⟩
            have hpp : pre.filterMap Command.prepared? = [] := List.filterMap_eq_nil_iff.2 fun c hc => (hpre c hc).1
            have hpm : pre.filterMap Command.measured? = [] := List.filterMap_eq_nil_iff.2 fun c hc => (hpre c hc).2
            have hp1 : ((E ++ done.flatMap (blockOf meas xl zl)) ++ ([Command.M u (meas u) ∅ ∅] ++ pre)).filterMap Command.prepared? = [] := by
              rw [List.filterMap_append, hp0, List.filterMap_append, hpp]; rfl
            have hm1 : ((E ++ done.flatMap (blockOf meas xl zl)) ++ ([Command.M u (meas u) ∅ ∅] ++ pre)).filterMap Command.measured? = done ++ [u] := by
              rw [List.filterMap_append, hm0, List.filterMap_append, hpm]; rfl
            have heq : N ++ (E ++ done.flatMap (blockOf meas xl zl)) ++ [Command.M u (meas u) ∅ ∅] ++ pre =
                N ++ ((E ++ done.flatMap (blockOf meas xl zl)) ++ ([Command.M u (meas u) ∅ ∅] ++ pre)) := by simp
            rw [heq]
            rcases List.mem_append.1 hcmd with hc | hc <;> obtain ⟨k, hk, rfl⟩ := List.mem_map.1 hc
            · have h2 := hlat k (Or.inr hk)
              refine ⟨(hlive _ _ k hp1 hm1).2 ⟨hzn u hu k hk, by simp [h2.1, h2.2]⟩, ?_⟩
              intro j hj
              rw [hmeas, hm1]; simp only [Finset.mem_singleton] at hj; simp [hj]
            · have h2 := hlat k (Or.inl hk)
              refine ⟨(hlive _ _ k hp1 hm1).2 ⟨hxn u hu k hk, by simp [h2.1, h2.2]⟩, ?_⟩
              intro j hj
              rw [hmeas, hm1]; simp only [Finset.mem_singleton] at hj; simp [hj]
          · have := ih (done ++ [u]) (by rw [hsplit]; simp)
            rw [List.flatMap_append] at this
            simpa [List.append_assoc] using this
      have := key [] order rfl
      simpa using this
    · intro pre cmd post he
      obtain ⟨l1, l2, hl, h1, h2⟩ := List.map_eq_append_iff.1 he
      cases l2 with
      | nil => simp at h2
      | cons kv l2 =>
        simp only [List.map_cons, List.cons.injEq] at h2
        rw [← h2.1, ← h1]
        have hk : kv.1 ∈ og.outputs := by
          have := hcl (x := kv.1) (by rw [List.mem_toFinset]; exact List.mem_map.2 ⟨kv, by rw [hl]; simp, rfl⟩)
          simpa using this
        have hp1 : (E ++ (order.flatMap (blockOf meas xl zl) ++ l1.map (fun kv => Command.C kv.1 kv.2))).filterMap Command.prepared? = [] := by
          rw [List.filterMap_append, List.filterMap_append, hEp, blockOf_prepared]
          rw [List.nil_append, List.nil_append, List.filterMap_eq_nil_iff]
          intro c hc; obtain ⟨k, -, rfl⟩ := List.mem_map.1 hc; rfl
        have hm1 : (E ++ (order.flatMap (blockOf meas xl zl) ++ l1.map (fun kv => Command.C kv.1 kv.2))).filterMap Command.measured? = order := by
          rw [List.filterMap_append, List.filterMap_append, hEm, blockOf_measured, List.nil_append]
          conv_rhs => rw [← List.append_nil order]
          congr 1
          rw [List.filterMap_eq_nil_iff]
          intro c hc; obtain ⟨k, -, rfl⟩ := List.mem_map.1 hc; rfl
        have := (hlive _ _ kv.1 hp1 hm1).2 ⟨ho (List.mem_toFinset.2 hk), fun h => ((hset _).1 h).2 hk⟩
        show Live _ _ _
        simpa [List.append_assoc] using this
  · intro n
    unfold patternCmds
    rw [hlive _ order n]
    · rw [hset]
      constructor
      · intro h; exact ⟨ho (List.mem_toFinset.2 h), fun h' => h'.2 h⟩
      · rintro ⟨h1, h2⟩; by_contra h3; exact h2 ⟨h1, h3⟩
    · rw [List.filterMap_append, List.filterMap_append, hEp, blockOf_prepared, hCp]; rfl
    · rw [List.filterMap_append, List.filterMap_append, hEm, blockOf_measured, hCm]; simp

/-- The nodes corrected by `u`, in the order of the pattern. -/
def XZCorrections.xl (xz : XZCorrections) (ord : SetOrd) (u : ℕ) : List ℕ := XZCorrections.corrected (ord 3 u) xz.x u
def XZCorrections.zl (xz : XZCorrections) (ord : SetOrd) (u : ℕ) : List ℕ := XZCorrections.corrected (ord 2 u) xz.z u

theorem measureCmds_eq (xz : XZCorrections) (ord : SetOrd) (order : List ℕ)
    (h : ∀ u ∈ order, ∃ m, xz.og.measurements.get? u = some m) :
    xz.measureCmds ord order = .ok (order.flatMap (blockOf xz.og.measOf (xz.xl ord) (xz.zl ord))) := by
  induction order with
  | nil => rfl
  | cons u us ih =>
    obtain ⟨m, hm⟩ := h u (by simp)
    have h2 := ih fun v hv => h v (by simp [hv])
    simp only [XZCorrections.measureCmds, hm, h2, bind, Except.bind, pure, Except.pure, List.flatMap_cons, blockOf,
      OpenGraph.measOf, Option.getD_some, XZCorrections.xl, XZCorrections.zl]
    simp

theorem corrected_mem {ord : SetOrd} (hord : ord.Valid) (a b : ℕ) (d : PyDict ℕ (Finset ℕ)) (u w : ℕ) :
    w ∈ XZCorrections.corrected (ord a b) d u ↔ ∃ s, d.get? u = some s ∧ w ∈ s := by
  unfold XZCorrections.corrected
  cases d.get? u with
  | none => simp
  | some s => simp [(hord _ _ _).2]

theorem corrected_nodup {ord : SetOrd} (hord : ord.Valid) (a b : ℕ) (d : PyDict ℕ (Finset ℕ)) (u : ℕ) :
    (XZCorrections.corrected (ord a b) d u).Nodup := by
  unfold XZCorrections.corrected
  cases d.get? u with
  | none => simp
  | some s => exact (hord _ _ _).1

/-- The corrections only concern nodes of the graph. -/
def XZCorrections.Targets (xz : XZCorrections) : Prop :=
  (∀ u s v, xz.x.get? u = some s → v ∈ s → v ∈ xz.og.nodes) ∧ (∀ u s v, xz.z.get? u = some s → v ∈ s → v ∈ xz.og.nodes)

theorem later_of_ext {xz : XZCorrections} {ord : SetOrd} (hord : ord.Valid) (hc : CorrectionsOk xz) (ht : xz.Targets)
    {order : List ℕ} (hext : LinearExtension xz.og xz.layers order) :
    ∀ pre u post, order = pre ++ u :: post → ∀ w, w ∈ xz.xl ord u ∨ w ∈ xz.zl ord u → w ∉ pre ∧ w ≠ u := by
  intro pre u post hsplit w hw
  have hb : Before xz.layers u w := by
    rcases hw with h | h
    · obtain ⟨s, h1, h2⟩ := (corrected_mem hord _ _ _ _ _).1 h
      exact hc.x_later u s w h1 h2 (ht.1 u s w h1 h2)
    · obtain ⟨s, h1, h2⟩ := (corrected_mem hord _ _ _ _ _).1 h
      exact hc.z_later u s w h1 h2 (ht.2 u s w h1 h2)
  constructor
  · intro hwp
    have := hext.mono
    rw [hsplit, List.pairwise_append] at this
    exact this.2.2 w hwp u (by simp) hb
  · rintro rfl
    obtain ⟨i, j, K, L, h1, h2, h3, h4, h5⟩ := hb
    have := index_unique hc.layers.disjoint h1 h2 h4 h5
    omega

theorem buildPattern_ok {xz : XZCorrections} (hv : xz.og.Valid) {ord : SetOrd} (hord : ord.Valid) (hc : CorrectionsOk xz)
    (ht : xz.Targets) {order : List ℕ} (hext : LinearExtension xz.og xz.layers order) :
    ∃ q, xz.buildPattern ord order = .ok q ∧
      q.seq = patternCmds (ord 1 0 (xz.og.nodes \ xz.og.inputs.toFinset)) xz.og xz.og.measOf (xz.xl ord) (xz.zl ord) order ∧
      q.inputs = xz.og.inputs ∧ q.outputs = xz.og.outputs ∧ q.checkRunnability = .ok () ∧ q.OutputsOk := by
  obtain ⟨hm, hi, ho, hin, hon, hcl⟩ := xz.og.postInit_ok hv.post
  have hmeas : ∀ u ∈ order, ∃ m, xz.og.measurements.get? u = some m := by
    intro u hu
    have : u ∈ xz.og.measurements.keys.toFinset := by rw [hm]; simpa using (hext.mem u).1 hu
    rw [List.mem_toFinset, ← PyDict.get?_isSome_iff, Option.isSome_iff_exists] at this
    exact this
  have hrun := patternCmds_runnable hv (order := order) (ns := ord 1 0 (xz.og.nodes \ xz.og.inputs.toFinset))
    (meas := xz.og.measOf) (xl := xz.xl ord) (zl := xz.zl ord) (hord _ _ _).1 (fun n => by simp [(hord _ _ _).2])
    hext.nodup hext.mem
    (fun u _ w hw => by obtain ⟨s, h1, h2⟩ := (corrected_mem hord _ _ _ _ _).1 hw; exact ht.1 u s w h1 h2)
    (fun u _ w hw => by obtain ⟨s, h1, h2⟩ := (corrected_mem hord _ _ _ _ _).1 hw; exact ht.2 u s w h1 h2)
    (later_of_ext hord hc ht hext)
  obtain ⟨q, h1, h2, h3, h4, h5, h6⟩ := rebuild_ok hin hrun.1 hon hrun.2
  refine ⟨q, ?_, h2, h3, h4, h5, h6⟩
  unfold XZCorrections.buildPattern
  rw [measureCmds_eq xz ord order hmeas]
  exact h1

/-- C31: for well-formed corrections on nodes of the graph, `to_pattern` succeeds, with or without a compatible total
order; the pattern is runnable, has the inputs and outputs of the open graph, and its commands are: the preparation of
the non-input nodes, the edges, each measurement followed by the corrections it triggers, the Clifford commands. Its
measurements are in the given order. -/
theorem C31_to_pattern (xz : XZCorrections) (hv : xz.og.Valid) (ord : SetOrd) (hord : ord.Valid)
    (hc : xz.checkWellFormed ord = .ok ()) (ht : xz.Targets) (given : Option (List ℕ))
    (hg : ∀ o, given = some o → xz.isCompatible o = .ok true) :
    ∃ q, xz.toPattern ord given = .ok q ∧ q.checkRunnability = .ok () ∧ q.inputs = xz.og.inputs ∧
      q.outputs = xz.og.outputs ∧ (∀ o, given = some o → measuredIn q.seq = o) ∧
      LinearExtension xz.og xz.layers (measuredIn q.seq) ∧
      q.OutputsOk ∧
      ∃ ns, q.seq = patternCmds ns xz.og xz.og.measOf (xz.xl ord) (xz.zl ord) (measuredIn q.seq) ∧ ns.Nodup ∧
        ∀ n, n ∈ ns ↔ n ∈ xz.og.nodes ∧ n ∉ xz.og.inputs := by
  have hco := (C29_xzcorrections xz hv ord hord).1 hc
  have hmeas : ∀ ns order, measuredIn (patternCmds ns xz.og xz.og.measOf (xz.xl ord) (xz.zl ord) order) = order := by
    intro ns order
    unfold measuredIn patternCmds
    rw [List.filterMap_append, List.filterMap_append, List.filterMap_append, blockOf_measured]
    have h1 : (ns.map (Command.N · PlanarState.plus)).filterMap Command.measured? = [] := by
      rw [List.filterMap_eq_nil_iff]; intro c hc; obtain ⟨k, -, rfl⟩ := List.mem_map.1 hc; rfl
    have h2 : (xz.og.edges.map (fun e => Command.E e.1 e.2)).filterMap Command.measured? = [] := by
      rw [List.filterMap_eq_nil_iff]; intro c hc; obtain ⟨k, -, rfl⟩ := List.mem_map.1 hc; rfl
    have h3 : (xz.og.cliffords.map (fun kv => Command.C kv.1 kv.2)).filterMap Command.measured? = [] := by
      rw [List.filterMap_eq_nil_iff]; intro c hc; obtain ⟨k, -, rfl⟩ := List.mem_map.1 hc; rfl
    rw [h1, h2, h3]; simp
  have key : ∀ order, LinearExtension xz.og xz.layers order → ∃ q, xz.buildPattern ord order = .ok q ∧
      q.checkRunnability = .ok () ∧ q.inputs = xz.og.inputs ∧ q.outputs = xz.og.outputs ∧ measuredIn q.seq = order ∧
      q.OutputsOk ∧
      ∃ ns, q.seq = patternCmds ns xz.og xz.og.measOf (xz.xl ord) (xz.zl ord) order ∧ ns.Nodup ∧
        ∀ n, n ∈ ns ↔ n ∈ xz.og.nodes ∧ n ∉ xz.og.inputs := by
    intro order hext
    obtain ⟨q, h1, h2, h3, h4, h5, h6⟩ := buildPattern_ok hv hord hco ht hext
    exact ⟨q, h1, h5, h3, h4, by rw [h2, hmeas], h6, _, h2, (hord _ _ _).1, fun n => by simp [(hord _ _ _).2]⟩
  cases given with
  | none =>
    obtain ⟨order, ho, hext⟩ := C31_total_order xz hv hco.layers ord hord
    obtain ⟨q, h1, h2, h3, h4, h5, h7, h6⟩ := key order hext
    refine ⟨q, ?_, h2, h3, h4, by simp, by rw [h5]; exact hext, h7, by rw [h5]; exact h6⟩
    unfold XZCorrections.toPattern
    simp only [ho, h1, bind, Except.bind]
  | some order =>
    have hcomp := hg order rfl
    have hne : ∃ u ∈ xz.og.nodes, u ∉ xz.og.outputs := by
      by_contra hne
      have h0 := C31_is_compatible_empty_raises xz hv hco.layers hne
      have : order = [] := by
        by_contra hn
        obtain ⟨u, us, rfl⟩ := List.exists_cons_of_ne_nil hn
        push Not at hne
        have hz : xz.og.nodes \ xz.og.outputs.toFinset = ∅ := by
          ext u; simp only [Finset.mem_sdiff, List.mem_toFinset, Finset.notMem_empty, iff_false]
          exact fun h => h.2 (hne u h.1)
        unfold XZCorrections.isCompatible at hcomp
        simp only [hz] at hcomp
        rw [if_pos (by simp)] at hcomp
        simp at hcomp
      rw [this, h0.2] at hcomp; simp at hcomp
    obtain ⟨b, hb, hiff⟩ := C31_is_compatible xz hv hco.layers hne order
    rw [hcomp] at hb
    have hext := hiff.1 (by cases hb; rfl)
    obtain ⟨q, h1, h2, h3, h4, h5, h7, h6⟩ := key order hext
    refine ⟨q, ?_, h2, h3, h4, by simp [h5], by rw [h5]; exact hext, h7, by rw [h5]; exact h6⟩
    unfold XZCorrections.toPattern
    simp only [hcomp, h1, bind, Except.bind, if_true]

/-! Non-vacuity. -/

/-- The corrections of the causal flow of the path. -/
noncomputable def exXZ : XZCorrections :=
  ⟨exOg exLabels, [(0, {1}), (1, {2}), (2, {3})], [(0, {2}), (1, {3})], [{3}, {2}, {1}, {0}]⟩

example : exXZ.checkWellFormed exOrd = .ok () := rfl
example : exXZ.isCompatible [0, 1, 2] = .ok true := by simp [exXZ, exOg, XZCorrections.isCompatible, OpenGraph.measuredLayers, XZCorrections.isCompatibleLoop]; rfl
example : exXZ.Targets := by
  constructor
  · intro u s v h hv
    have := PyDict.mem_of_get? h
    simp only [exXZ, List.mem_cons, Prod.mk.injEq, List.not_mem_nil, or_false] at this
    rcases this with ⟨rfl, rfl⟩ | ⟨rfl, rfl⟩ | ⟨rfl, rfl⟩ <;> simp [exXZ, exOg] at hv ⊢ <;> omega
  · intro u s v h hv
    have := PyDict.mem_of_get? h
    simp only [exXZ, List.mem_cons, Prod.mk.injEq, List.not_mem_nil, or_false] at this
    rcases this with ⟨rfl, rfl⟩ | ⟨rfl, rfl⟩ <;> simp [exXZ, exOg] at hv ⊢ <;> omega

/-- Corrections on the path, one of which is on a node that is not in the graph. -/
noncomputable def exXZOut : XZCorrections := ⟨exOg exLabels, [(0, {7})], [], [{3}, {2}, {1}, {0}]⟩

/-- C31, why the corrections must be on nodes of the graph: `check_well_formed` does not look at the targets outside
the graph, and the pattern that `to_pattern` returns then fails `check_runnability`. -/
theorem C31_targets_not_checked : exXZOut.checkWellFormed exOrd = .ok () ∧
    ∃ q, exXZOut.toPattern exOrd none = .ok q ∧ ∃ e, q.checkRunnability = .error e :=
  ⟨rfl, _, rfl, _, rfl⟩

end Graphix
