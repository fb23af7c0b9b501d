import Verif.Model.ToPauliFlow
import Verif.Props.Determinism
import Verif.Props.Linalg

/-! # C32: reconstruction of a flow from XZ-corrections -/

namespace Graphix
namespace XZCorrections

/-- A solution of a linear equation in `n` variables. -/
def Holds (n : ℕ) (x : ℕ → ZMod 2) (e : List (ZMod 2) × ZMod 2) : Prop :=
  ∑ l ∈ Finset.range n, e.1.getD l 0 * x l = e.2

theorem sum_comb {m n : ℕ} {a a' : GF2} (h : GF2.RowComb m a a') (y : ℕ → ZMod 2)
    (ha : ∀ r, r < m → ∑ l ∈ Finset.range n, a r l * y l = a r n) :
    ∀ r, r < m → ∑ l ∈ Finset.range n, a' r l * y l = a' r n := by
  intro r hr
  obtain ⟨u, hu⟩ := h r hr
  simp only [hu, Finset.sum_mul]
  rw [Finset.sum_comm]
  refine Finset.sum_congr rfl fun k hk => ?_
  rw [← ha k (Finset.mem_range.1 hk), Finset.mul_sum]
  exact Finset.sum_congr rfl fun l _ => mul_assoc _ _ _

theorem solveSystem_spec (n : ℕ) (sys : List (List (ZMod 2) × ZMod 2)) :
    (∀ x, solveSystem n sys = some x → ∀ e ∈ sys, Holds n x e) ∧
    (solveSystem n sys = none → ¬ ∃ x, ∀ e ∈ sys, Holds n x e) := by
  by_cases h0 : sys = []
  · subst h0; simp [solveSystem]
  unfold solveSystem
  rw [if_neg h0]
  set aug : GF2 := fun i j => if j < n then (sys.getD i ([], 0)).1.getD j 0 else (sys.getD i ([], 0)).2 with haug
  obtain ⟨⟨p, piv, he⟩, hc, hc'⟩ := GF2.elimination_spec false sys.length n aug
  set red := GF2.elimination false sys.length n aug with hred
  have hrow : ∀ x : ℕ → ZMod 2, (∀ e ∈ sys, Holds n x e) ↔
      ∀ r, r < sys.length → ∑ l ∈ Finset.range n, aug r l * x l = aug r n := by
    intro x
    rw [List.forall_mem_iff_getElem]
    refine forall_congr' fun r => ?_
    refine forall_congr' fun hr => ?_
    unfold Holds
    have e1 : aug r n = sys[r].2 := by simp [haug, List.getD_eq_getElem?_getD, hr]
    rw [e1]
    have e2 : ∑ l ∈ Finset.range n, aug r l * x l = ∑ l ∈ Finset.range n, sys[r].1.getD l 0 * x l := by
      refine Finset.sum_congr rfl fun l hl => ?_
      simp [haug, Finset.mem_range.1 hl, hr]
    rw [e2]
  simp only []
  split
  · rename_i hb
    refine ⟨by simp, fun _ => ?_⟩
    rintro ⟨x, hx⟩
    rw [hrow] at hx
    have hx' := sum_comb hc x hx
    simp only [List.any_eq_true, List.mem_range, Bool.and_eq_true, Bool.not_eq_true', decide_eq_true_eq] at hb
    obtain ⟨r, hr, h1, h2⟩ := hb
    have h3 : ∀ l, l < n → red r l = 0 := by
      intro l hl
      rw [← GF2.zmod2_ne_one]
      intro h
      have : red.rowAny n r = true := (GF2.rowAny_iff _ _ _).2 ⟨l, hl, h⟩
      rw [h1] at this; cases this
    have := hx' r hr
    have h2' : red r n = 1 := h2
    rw [h2', Finset.sum_eq_zero (fun l hl => by rw [h3 l (Finset.mem_range.1 hl), zero_mul])] at this
    exact zero_ne_one this
  · rename_i hb
    have hb0 : ∀ r, p ≤ r → r < sys.length → red r n = 0 := by
      intro r h1 h2
      rw [← GF2.zmod2_ne_one]
      intro h
      apply hb
      simp only [List.any_eq_true, List.mem_range, Bool.and_eq_true, Bool.not_eq_true', decide_eq_true_eq]
      refine ⟨r, h2, ?_, h⟩
      rw [← Bool.not_eq_true]
      intro h3
      have := (he.rowAny r h2).1 h3
      omega
    obtain ⟨x, hx, hx'⟩ := he.solve_spec hb0
    rw [hx]
    refine ⟨fun y hy => ?_, by simp⟩
    simp only [Option.some.injEq] at hy
    subst hy
    rw [hrow]
    exact sum_comb hc' x hx'

theorem mem_chosen (vars : List ℕ) (x : ℕ → ZMod 2) (v : ℕ) :
    v ∈ chosen vars x ↔ ∃ l, vars[l]? = some v ∧ x l = 1 := by
  unfold chosen
  simp only [List.mem_toFinset, List.mem_map, List.mem_filter, decide_eq_true_eq, Prod.exists]
  constructor
  · rintro ⟨a, i, ⟨h1, h2⟩, rfl⟩
    rw [List.mem_zipIdx_iff_getElem?] at h1
    exact ⟨i, h1, h2⟩
  · rintro ⟨l, h1, h2⟩
    exact ⟨v, l, ⟨by rw [List.mem_zipIdx_iff_getElem?]; exact h1, h2⟩, rfl⟩

theorem sum_chosen {vars : List ℕ} (hn : vars.Nodup) (x : ℕ → ZMod 2) (f : ℕ → ZMod 2) :
    ∑ l ∈ Finset.range vars.length, (vars.map f).getD l 0 * x l = ∑ v ∈ chosen vars x, f v := by
  have e : chosen vars x = ((Finset.range vars.length).filter fun l => x l = 1).image fun l => vars.getD l 0 := by
    ext v
    simp only [mem_chosen, Finset.mem_image, Finset.mem_filter, Finset.mem_range]
    constructor
    · rintro ⟨l, h1, h2⟩
      obtain ⟨h3, h4⟩ := List.getElem?_eq_some_iff.1 h1
      exact ⟨l, ⟨h3, h2⟩, by simp [h1]⟩
    · rintro ⟨l, ⟨h1, h2⟩, rfl⟩
      exact ⟨l, by simp [h1], h2⟩
  rw [e, Finset.sum_image, Finset.sum_filter]
  · refine Finset.sum_congr rfl fun l hl => ?_
    have hl' := Finset.mem_range.1 hl
    rcases GF2.zmod2_cases (x l) with h | h
    · simp [h]
    · simp [h, hl']
  · intro a ha b hb hab
    simp only [Finset.coe_filter, Finset.mem_range, Set.mem_setOf_eq] at ha hb
    simp only [List.getD_eq_getElem?_getD, List.getElem?_eq_getElem ha.1, List.getElem?_eq_getElem hb.1,
      Option.getD_some] at hab
    exact (List.Nodup.getElem_inj_iff hn).1 hab

/-- Parity of the number of neighbours of `g` in `P`. -/
def sv (og : OpenGraph) (P : Finset ℕ) (g : ℕ) : ZMod 2 := ∑ v ∈ P, if v ∈ og.nbrs g then 1 else 0

theorem sv_card (og : OpenGraph) (P : Finset ℕ) (g : ℕ) : sv og P g = ((og.nbrs g ∩ P).card : ZMod 2) := by
  unfold sv
  rw [Finset.sum_ite_mem, Finset.sum_const, nsmul_eq_mul, mul_one, Finset.inter_comm]

theorem sv_iff (og : OpenGraph) (P : Finset ℕ) (g : ℕ) : sv og P g = 1 ↔ og.InOdd P g := by
  unfold OpenGraph.InOdd
  rw [sv_card, show og.nbrs g ∩ P = P.filter (og.Adj g) by
    ext v; simp [OpenGraph.mem_nbrs, and_comm], ← ZMod.natCast_eq_one_iff_odd]

theorem sv_iff0 (og : OpenGraph) (P : Finset ℕ) (g : ℕ) : sv og P g = 0 ↔ ¬ og.InOdd P g := by
  rw [← sv_iff]; exact GF2.zmod2_ne_one.symm

theorem constAt_eq (og : OpenGraph) (P : Finset ℕ) (g : ℕ) : constAt (og.nbrs g) P = sv og P g := by
  rw [sv_card]; unfold constAt
  simp

/-- The indicator of membership. -/
def ind (g : ℕ) (P : Finset ℕ) : ZMod 2 := if g ∈ P then 1 else 0

theorem holds_rowAt (og : OpenGraph) {vars : List ℕ} (hn : vars.Nodup) {fixed : Finset ℕ}
    (hd : ∀ v ∈ vars, v ∉ fixed) (x : ℕ → ZMod 2) (g : ℕ) (c : ZMod 2) :
    Holds vars.length x (rowAt (og.nbrs g) vars, c + constAt (og.nbrs g) fixed) ↔ sv og (fixed ∪ chosen vars x) g = c := by
  unfold Holds rowAt
  simp only []
  rw [sum_chosen hn, constAt_eq]
  have hdis : Disjoint fixed (chosen vars x) := by
    rw [Finset.disjoint_right]
    intro v hv
    obtain ⟨l, h1, -⟩ := (mem_chosen _ _ _).1 hv
    exact hd v (List.mem_of_getElem? h1)
  have : sv og (fixed ∪ chosen vars x) g = sv og fixed g + ∑ v ∈ chosen vars x, if v ∈ og.nbrs g then 1 else 0 := by
    unfold sv; rw [Finset.sum_union hdis]
  rw [this]
  generalize (∑ v ∈ chosen vars x, if v ∈ og.nbrs g then (1 : ZMod 2) else 0) = s
  generalize sv og fixed g = t
  revert s t c; decide

theorem holds_rowAtY (og : OpenGraph) {vars : List ℕ} (hn : vars.Nodup) {fixed : Finset ℕ}
    (hd : ∀ v ∈ vars, v ∉ fixed) (x : ℕ → ZMod 2) (g : ℕ) (hg : g ∉ fixed) (c : ZMod 2) :
    Holds vars.length x (rowAtY (og.nbrs g) vars g, c + constAt (og.nbrs g) fixed) ↔
      sv og (fixed ∪ chosen vars x) g + ind g (fixed ∪ chosen vars x) = c := by
  unfold Holds rowAtY
  simp only []
  rw [sum_chosen hn, constAt_eq]
  have hdis : Disjoint fixed (chosen vars x) := by
    rw [Finset.disjoint_right]
    intro v hv
    obtain ⟨l, h1, -⟩ := (mem_chosen _ _ _).1 hv
    exact hd v (List.mem_of_getElem? h1)
  have : sv og (fixed ∪ chosen vars x) g = sv og fixed g + ∑ v ∈ chosen vars x, if v ∈ og.nbrs g then 1 else 0 := by
    unfold sv; rw [Finset.sum_union hdis]
  have h2 : ind g (fixed ∪ chosen vars x) = ∑ v ∈ chosen vars x, if v = g then 1 else 0 := by
    rw [Finset.sum_ite_eq']; unfold ind; simp [hg]
  rw [this, h2, Finset.sum_add_distrib]
  generalize (∑ v ∈ chosen vars x, if v ∈ og.nbrs g then (1 : ZMod 2) else 0) = s
  generalize (∑ v ∈ chosen vars x, if v = g then (1 : ZMod 2) else 0) = r
  generalize sv og fixed g = t
  revert s t c r; decide

theorem futureRows_spec {og : OpenGraph} {vars : List ℕ} (hn : vars.Nodup) {fixed zCorr : Finset ℕ}
    (hd : ∀ v ∈ vars, v ∉ fixed) (l : List ℕ) (hl : ∀ g ∈ l, g ∈ og.nodes) :
    ∃ rows, futureRows og vars fixed zCorr l = .ok rows ∧ ∀ x, (∀ e ∈ rows, Holds vars.length x e) ↔
      ∀ g ∈ l, sv og (fixed ∪ chosen vars x) g = ind g zCorr := by
  induction l with
  | nil => exact ⟨[], rfl, by simp⟩
  | cons g l ih =>
    obtain ⟨rows, h1, h2⟩ := ih fun g hg => hl g (by simp [hg])
    simp only [futureRows, adjacencyAt, if_pos (hl g (by simp)), h1, bind, Except.bind, pure, Except.pure]
    refine ⟨_, rfl, fun x => ?_⟩
    rw [List.forall_mem_cons, List.forall_mem_cons, h2, holds_rowAt og hn hd x g]
    rfl

theorem nonfutureRows_spec {og : OpenGraph} {vars : List ℕ} (hn : vars.Nodup) {fixed : Finset ℕ}
    (hd : ∀ v ∈ vars, v ∉ fixed) (l : List ℕ) (hl : ∀ g ∈ l, g ∈ og.nodes ∧ g ∉ fixed ∧ ∃ lab, og.HasLabel g lab) :
    ∃ rows, nonfutureRows og vars fixed l = .ok rows ∧ ∀ x, (∀ e ∈ rows, Holds vars.length x e) ↔
      ∀ g ∈ l, (∀ lab, og.HasLabel g lab → lab ≠ .axis .Y → lab ≠ .axis .Z → sv og (fixed ∪ chosen vars x) g = 0) ∧
        (og.HasLabel g (.axis .Y) → sv og (fixed ∪ chosen vars x) g + ind g (fixed ∪ chosen vars x) = 0) := by
  induction l with
  | nil => exact ⟨[], rfl, by simp⟩
  | cons g l ih =>
    obtain ⟨rows, h1, h2⟩ := ih fun g hg => hl g (by simp [hg])
    obtain ⟨h3, h4, lab, h5⟩ := hl g (by simp)
    have h6 : labelGet og g = some lab := by
      obtain ⟨m, hm, rfl⟩ := h5; simp [labelGet, hm]
    have hu : ∀ lab', og.HasLabel g lab' ↔ lab' = lab := fun lab' => ⟨fun h => h.unique h5, fun h => h ▸ h5⟩
    simp only [nonfutureRows, adjacencyAt, if_pos h3, h1, h6, bind, Except.bind, pure, Except.pure]
    by_cases hY : lab = .axis .Y
    · subst hY
      refine ⟨_, by simp; rfl, fun x => ?_⟩
      rw [List.forall_mem_cons, List.forall_mem_cons, h2]
      have := holds_rowAtY og hn hd x g h4 0
      rw [zero_add] at this
      rw [this]
      simp [hu]
    · by_cases hZ : lab = .axis .Z
      · subst hZ
        refine ⟨rows, by simp, fun x => ?_⟩
        rw [List.forall_mem_cons, h2]
        simp [hu]
      · refine ⟨_, by rw [if_pos ⟨hY, hZ⟩], fun x => ?_⟩
        rw [List.forall_mem_cons, List.forall_mem_cons, h2]
        have := holds_rowAt og hn hd x g 0
        rw [zero_add] at this
        rw [this]
        simp [hu, hY, hZ, Ne.symm hY]

theorem nodeRows_spec {og : OpenGraph} {vars : List ℕ} (hn : vars.Nodup) {fixed : Finset ℕ}
    (hd : ∀ v ∈ vars, v ∉ fixed) (u : ℕ) (hu : u ∈ og.nodes) (lab : Label) (hf : lab = .axis .Y → u ∉ fixed) :
    ∃ rows, nodeRows og vars fixed u lab = .ok rows ∧ ∀ x, (∀ e ∈ rows, Holds vars.length x e) ↔
      (lab = .axis .Y → sv og (fixed ∪ chosen vars x) u + ind u (fixed ∪ chosen vars x) = 1) ∧
      (lab ≠ .axis .Y → lab ≠ .axis .Z → sv og (fixed ∪ chosen vars x) u = if lab = .plane .YZ then 0 else 1) := by
  simp only [nodeRows, adjacencyAt, if_pos hu, bind, Except.bind, pure, Except.pure]
  by_cases hY : lab = .axis .Y
  · refine ⟨_, by rw [if_pos hY], fun x => ?_⟩
    rw [List.forall_mem_singleton, holds_rowAtY og hn hd x u (hf hY)]
    simp [hY]
  · by_cases hZ : lab = .axis .Z
    · exact ⟨[], by simp [hZ], by simp [hZ]⟩
    · refine ⟨_, by rw [if_neg hY, if_pos hZ], fun x => ?_⟩
      rw [List.forall_mem_singleton, holds_rowAt og hn hd x u]
      simp [hY, hZ]

theorem futureOf_skip (u : ℕ) (ls : List (Finset ℕ)) (acc s : Finset ℕ) (h : ∀ L ∈ ls, u ∉ L) :
    futureOf u ls acc (some s) = .ok s := by
  induction ls generalizing acc with
  | nil => rfl
  | cons L ls ih =>
    simp only [futureOf]
    rw [if_neg (h L (by simp))]
    exact ih _ fun K hK => h K (by simp [hK])

theorem futureOf_ok (u : ℕ) (ls : List (Finset ℕ)) (hd : ls.Pairwise Disjoint) (i : ℕ) (L : Finset ℕ)
    (hi : ls[i]? = some L) (hu : u ∈ L) (acc : Finset ℕ) (r : Option (Finset ℕ)) :
    futureOf u ls acc r = .ok (acc ∪ unionL (ls.take i)) := by
  induction ls generalizing i acc r with
  | nil => simp at hi
  | cons K ls ih =>
    rw [List.pairwise_cons] at hd
    cases i with
    | zero =>
      simp only [List.getElem?_cons_zero, Option.some.injEq] at hi
      subst hi
      simp only [futureOf]
      rw [if_pos hu, futureOf_skip]
      · simp
      · intro M hM huM
        exact Finset.disjoint_left.1 (hd.1 M hM) hu huM
    | succ i =>
      simp only [List.getElem?_cons_succ] at hi
      simp only [futureOf]
      rw [ih hd.2 i hi]
      simp [Finset.union_assoc]

theorem futureOf_spec {og : OpenGraph} {layers : List (Finset ℕ)} (hl : LayersOk og layers) {u : ℕ} (hu : u ∈ og.nodes) :
    ∃ fut, futureOf u layers ∅ none = .ok fut ∧ ∀ v, v ∈ fut ↔ Before layers u v := by
  obtain ⟨L, hL, huL⟩ := (hl.cover u).1 hu
  obtain ⟨i, hi⟩ := List.mem_iff_getElem?.1 hL
  refine ⟨_, futureOf_ok u layers hl.disjoint i L hi huL ∅ none, fun v => ?_⟩
  rw [Finset.empty_union, mem_unionL]
  constructor
  · rintro ⟨K, hK, hv⟩
    obtain ⟨j, hj⟩ := List.mem_iff_getElem?.1 hK
    rw [List.getElem?_take] at hj
    split at hj
    · rename_i hji; exact ⟨i, j, L, K, hi, hj, hji, huL, hv⟩
    · simp at hj
  · rintro ⟨i', j, K, M, h1, h2, h3, h4, h5⟩
    have := index_unique hl.disjoint hi h1 huL h4
    subst this
    exact ⟨M, List.mem_iff_getElem?.2 ⟨j, by rw [List.getElem?_take, if_pos h3]; exact h2⟩, h5⟩

/-- `P` can be the correction set of `u` in a Pauli flow with the given layers whose corrections for `u` are `X`, `Z`. -/
structure NodeFlow (og : OpenGraph) (layers : List (Finset ℕ)) (X Z : Finset ℕ) (u : ℕ) (P : Finset ℕ) : Prop where
  image : ∀ v ∈ P, v ∈ og.nodes ∧ v ∉ og.inputs
  xs : ∀ v, Before layers u v → (v ∈ P ↔ v ∈ X)
  zs : ∀ v, Before layers u v → (og.InOdd P v ↔ v ∈ Z)
  p1 : ∀ v ∈ P, v ≠ u → ¬ og.HasLabel v (.axis .X) → ¬ og.HasLabel v (.axis .Y) → Before layers u v
  p2 : ∀ v ∈ og.nodes, og.InOdd P v → v ≠ u → ¬ og.HasLabel v (.axis .Y) → ¬ og.HasLabel v (.axis .Z) → Before layers u v
  p3 : ∀ v, v ≠ u → og.HasLabel v (.axis .Y) → ¬ Before layers u v → (v ∈ P ↔ og.InOdd P v)
  p4 : og.HasLabel u (.plane .XY) → u ∉ P ∧ og.InOdd P u
  p5 : og.HasLabel u (.plane .XZ) → u ∈ P ∧ og.InOdd P u
  p6 : og.HasLabel u (.plane .YZ) → u ∈ P ∧ ¬ og.InOdd P u
  p7 : og.HasLabel u (.axis .X) → og.InOdd P u
  p8 : og.HasLabel u (.axis .Z) → u ∈ P
  p9 : og.HasLabel u (.axis .Y) → (u ∈ P ↔ ¬ og.InOdd P u)

theorem labelGet_eq (og : OpenGraph) (a : ℕ) (l : Label) : labelGet og a = some l ↔ og.HasLabel a l := by
  unfold labelGet OpenGraph.HasLabel; simp [Option.map_eq_some_iff]

theorem mem_candidates {og : OpenGraph} {ord : SetOrd} (hord : ord.Valid) {u : ℕ} (hu : u ∈ og.nodes) {fut : Finset ℕ} (a : ℕ) :
    a ∈ candidates og ord u fut ↔ (a = u ∨ a ∉ fut) ∧ a ∈ og.nodes ∧ a ∉ og.inputs ∧
      (og.HasLabel a (.axis .X) ∨ og.HasLabel a (.axis .Y)) := by
  unfold candidates
  simp only [List.mem_filter, (hord _ _ _).2, Finset.mem_insert, Finset.mem_sdiff, List.mem_toFinset, labelGet_eq,
    decide_eq_true_eq]
  constructor
  · rintro ⟨h | h, h1, h2⟩
    · exact ⟨Or.inl h, h1.1, h1.2, h2⟩
    · exact ⟨Or.inr h.2, h1.1, h1.2, h2⟩
  · rintro ⟨h | h, h1, h2, h3⟩
    · exact ⟨Or.inl h, ⟨h1, h2⟩, h3⟩
    · exact ⟨Or.inr ⟨h1, h⟩, ⟨h1, h2⟩, h3⟩

theorem selfFixed_iff (l : Label) : selfFixed l = true ↔ l = .plane .XZ ∨ l = .plane .YZ ∨ l = .axis .Z := by
  unfold selfFixed; simp [or_assoc]

theorem label_cases {lab : Label} (h4 : lab ≠ .plane .XY) (h5 : ¬ (lab = .plane .XZ ∨ lab = .plane .YZ ∨ lab = .axis .Z)) :
    Label.axis .X = lab ∨ Label.axis .Y = lab := by
  rcases lab with p | p <;> cases p <;> simp_all

theorem not_before_self {og : OpenGraph} {layers : List (Finset ℕ)} (hl : LayersOk og layers) (u : ℕ) : ¬ Before layers u u := by
  rintro ⟨i, j, K, L, h1, h2, h3, h4, h5⟩
  have := index_unique hl.disjoint h1 h2 h4 h5
  omega

/-- The correction set found for a node satisfies the conditions of Pauli flow; when none is found there is none. -/
theorem solvePauliCorrectionSet_spec (xz : XZCorrections) (hv : xz.og.Valid) (hl : LayersOk xz.og xz.layers)
    (ord : SetOrd) (hord : ord.Valid) {u : ℕ} (hu : u ∈ xz.og.nodes) (huo : u ∉ xz.og.outputs) {fut : Finset ℕ}
    (hfut : ∀ v, v ∈ fut ↔ Before xz.layers u v)
    (hx : ∀ v ∈ (xz.x.get? u).getD ∅, v ∈ xz.og.nodes ∧ v ∉ xz.og.inputs ∧ Before xz.layers u v) :
    ∃ r, xz.solvePauliCorrectionSet ord u fut = .ok r ∧
      (∀ s, r = some s → NodeFlow xz.og xz.layers ((xz.x.get? u).getD ∅) ((xz.z.get? u).getD ∅) u s) ∧
      (r = none → ¬ ∃ s, NodeFlow xz.og xz.layers ((xz.x.get? u).getD ∅) ((xz.z.get? u).getD ∅) u s) := by
  obtain ⟨lab, hlab⟩ := (OpenGraph.exists_label hv.post u).2 ⟨hu, huo⟩
  have hun : ∀ l, xz.og.HasLabel u l ↔ l = lab := fun l => ⟨fun h => h.unique hlab, fun h => h ▸ hlab⟩
  have hself := not_before_self hl u
  set X := (xz.x.get? u).getD ∅ with hX
  set Z := (xz.z.get? u).getD ∅ with hZ
  have hlabel : xz.og.label u = .ok lab := (xz.og.label_ok u lab).2 hlab
  unfold solvePauliCorrectionSet
  rw [hlabel]
  simp only [bind, Except.bind, pure, Except.pure]
  by_cases hsf : selfFixed lab = true ∧ u ∉ xz.og.nodes \ xz.og.inputs.toFinset
  · rw [if_pos hsf]
    refine ⟨none, rfl, by simp, fun _ => ?_⟩
    rintro ⟨s, hs⟩
    apply hsf.2
    have : u ∈ s := by
      rcases (selfFixed_iff _).1 hsf.1 with h | h | h
      · exact (hs.p5 (h ▸ hlab)).1
      · exact (hs.p6 (h ▸ hlab)).1
      · exact hs.p8 (h ▸ hlab)
    have := hs.image u this
    simp [this]
  rw [if_neg hsf]
  set vars := candidates xz.og ord u fut with hvars
  have hvn : vars.Nodup := ((hord _ _ _).1).filter _
  have hmv : ∀ a, a ∈ vars ↔ _ := fun a => mem_candidates hord hu (fut := fut) a
  set fixed := if selfFixed lab then insert u X else X with hfixed
  have hmf : ∀ a, a ∈ fixed ↔ a ∈ X ∨ (a = u ∧ selfFixed lab = true) := by
    intro a
    rw [hfixed]
    split <;> rename_i h <;> simp [h, or_comm]
  have hXfut : ∀ a ∈ X, a ∈ fut := fun a ha => (hfut a).2 (hx a ha).2.2
  have huf : u ∉ fut := fun h => hself ((hfut u).1 h)
  have hd : ∀ v ∈ vars, v ∉ fixed := by
    intro v hv hf
    obtain ⟨h1, h2, h3, h4⟩ := (hmv v).1 hv
    rcases (hmf v).1 hf with h | ⟨rfl, h⟩
    · rcases h1 with rfl | h1
      · exact huf (hXfut _ h)
      · exact h1 (hXfut _ h)
    · rw [hun, hun] at h4
      rcases h4 with h4 | h4 <;> rw [← h4] at h <;> cases h
  have hfn : ∀ g ∈ fut, g ∈ xz.og.nodes := by
    intro g hg
    obtain ⟨i, j, K, L, h1, h2, h3, h4, h5⟩ := (hfut g).1 hg
    exact (hl.cover g).2 ⟨L, List.mem_of_getElem? h2, h5⟩
  obtain ⟨r1, e1, s1⟩ := futureRows_spec hvn hd (zCorr := Z) (ord 21 u fut) (og := xz.og)
    (fun g hg => hfn g (((hord _ _ _).2 g).1 hg))
  obtain ⟨r2, e2, s2⟩ := nonfutureRows_spec hvn hd (ord 22 u ((xz.og.nodes \ fut) \ {u})) (og := xz.og) (by
    intro g hg
    rw [(hord _ _ _).2] at hg
    simp only [Finset.mem_sdiff, Finset.mem_singleton] at hg
    obtain ⟨⟨h1, h2⟩, h3⟩ := hg
    refine ⟨h1, fun h => ?_, (OpenGraph.exists_label hv.post g).2 ⟨h1, fun h => ?_⟩⟩
    · rcases (hmf g).1 h with h | h
      · exact h2 (hXfut g h)
      · exact h3 h.1
    · exact h2 ((hfut g).2 (hl.outputs_after hu huo h)))
  obtain ⟨r3, e3, s3⟩ := nodeRows_spec (og := xz.og) hvn hd u hu lab (by
    rintro rfl h
    rcases (hmf u).1 h with h | h
    · exact huf (hXfut u h)
    · simp [selfFixed] at h)
  rw [e1]; simp only []
  rw [e2]; simp only []
  rw [e3]; simp only []
  -- the equations of the system
  have hsys : ∀ x, (∀ e ∈ r1 ++ (r2 ++ r3), Holds vars.length x e) ↔ _ := fun x =>
    List.forall_mem_append.trans (and_congr (s1 x) (List.forall_mem_append.trans (and_congr (s2 x) (s3 x))))
  refine ⟨_, rfl, ?_, ?_⟩
  · intro s hs
    obtain ⟨x, hx1, hx2⟩ := Option.map_eq_some_iff.1 hs
    obtain ⟨t1, t2, t3, t4⟩ := (hsys x).1 ((solveSystem_spec _ _).1 x hx1)
    rw [hx2] at t1 t2 t3 t4
    have hms : ∀ a, a ∈ s ↔ a ∈ fixed ∨ ∃ l, vars[l]? = some a ∧ x l = 1 := by
      intro a; rw [← hx2, Finset.mem_union, mem_chosen]
    have hsv : ∀ a ∈ s, a ∈ fixed ∨ a ∈ vars := by
      intro a ha
      rcases (hms a).1 ha with h | ⟨l, h, -⟩
      · exact Or.inl h
      · exact Or.inr (List.mem_of_getElem? h)
    have hus : selfFixed lab = true → u ∈ s := fun h => (hms u).2 (Or.inl ((hmf u).2 (Or.inr ⟨rfl, h⟩)))
    have hnf : ∀ g, g ∈ xz.og.nodes → g ≠ u → ¬ Before xz.layers u g → g ∈ ord 22 u ((xz.og.nodes \ fut) \ {u}) := by
      intro g h1 h2 h3
      rw [(hord _ _ _).2]
      simp [h1, h2, hfut, h3]
    refine ⟨?_, ?_, ?_, ?_, ?_, ?_, ?_, ?_, ?_, ?_, ?_, ?_⟩
    · intro v hvs
      rcases hsv v hvs with h | h
      · rcases (hmf v).1 h with h | ⟨rfl, h⟩
        · exact ⟨(hx v h).1, (hx v h).2.1⟩
        · by_contra hc
          exact hsf ⟨by assumption, by simpa using hc⟩
      · exact ⟨((hmv v).1 h).2.1, ((hmv v).1 h).2.2.1⟩
    · intro v hb
      constructor
      · intro hvs
        rcases hsv v hvs with h | h
        · rcases (hmf v).1 h with h | ⟨rfl, h⟩
          · exact h
          · exact absurd hb hself
        · rcases ((hmv v).1 h).1 with rfl | h
          · exact absurd hb hself
          · exact absurd ((hfut v).2 hb) h
      · exact fun h => (hms v).2 (Or.inl ((hmf v).2 (Or.inl h)))
    · intro v hb
      have := t1 v (((hord _ _ _).2 v).2 ((hfut v).2 hb))
      rw [← sv_iff, this]
      unfold ind; split <;> simp_all
    · intro v hvs hne hX' hY'
      rcases hsv v hvs with h | h
      · rcases (hmf v).1 h with h | ⟨rfl, h⟩
        · exact (hx v h).2.2
        · exact absurd rfl hne
      · exact absurd ((hmv v).1 h).2.2.2 (by simp [hX', hY'])
    · intro v hvn' hodd hne hY' hZ'
      by_contra hb
      obtain ⟨lv, hlv⟩ := (OpenGraph.exists_label hv.post v).2 ⟨hvn', fun h => hb (hl.outputs_after hu huo h)⟩
      have := (t2 v (hnf v hvn' hne hb)).1 lv hlv (by rintro rfl; exact hY' hlv) (by rintro rfl; exact hZ' hlv)
      exact (sv_iff0 _ _ _).1 this hodd
    · intro v hne hY' hb
      have hvn' := ((OpenGraph.exists_label hv.post v).1 ⟨_, hY'⟩).1
      have := (t2 v (hnf v hvn' hne hb)).2 hY'
      rw [← sv_iff]
      unfold ind at this
      split at this
      · rename_i hvs
        simp only [hvs, true_iff]
        revert this; generalize sv xz.og s v = t; revert t; decide
      · rename_i hvs
        simp only [hvs, false_iff]
        rw [add_zero] at this; simp [this]
    · intro h
      rw [hun] at h
      subst h
      refine ⟨fun hus' => ?_, (sv_iff _ _ _).1 (by rw [t4 (by simp) (by simp)]; simp)⟩
      rcases hsv u hus' with h | h
      · rcases (hmf u).1 h with h | h
        · exact huf (hXfut u h)
        · simp [selfFixed] at h
      · have := ((hmv u).1 h).2.2.2
        rw [hun, hun] at this
        simp at this
    · intro h
      rw [hun] at h
      subst h
      exact ⟨hus (by simp [selfFixed]), (sv_iff _ _ _).1 (by rw [t4 (by simp) (by simp)]; simp)⟩
    · intro h
      rw [hun] at h
      subst h
      exact ⟨hus (by simp [selfFixed]), (sv_iff0 _ _ _).1 (by rw [t4 (by simp) (by simp)]; simp)⟩
    · intro h
      rw [hun] at h
      subst h
      exact (sv_iff _ _ _).1 (by rw [t4 (by simp) (by simp)]; simp)
    · intro h
      rw [hun] at h
      subst h
      exact hus (by simp [selfFixed])
    · intro h
      rw [hun] at h
      have := t3 h.symm
      rw [← sv_iff]
      unfold ind at this
      split at this
      · rename_i hvs
        simp only [hvs, true_iff]
        revert this; generalize sv xz.og s u = t; revert t; decide
      · rename_i hvs
        simp only [hvs, false_iff, not_not]
        rw [add_zero] at this; simp [this]
  · intro hnone
    rw [Option.map_eq_none_iff] at hnone
    rintro ⟨s, hs⟩
    apply (solveSystem_spec _ _).2 hnone
    refine ⟨fun l => if vars.getD l 0 ∈ s then 1 else 0, ?_⟩
    rw [hsys]
    have hch : fixed ∪ chosen vars (fun l => if vars.getD l 0 ∈ s then 1 else 0) = s := by
      ext a
      rw [Finset.mem_union, mem_chosen, hmf]
      constructor
      · rintro ((h | ⟨rfl, h⟩) | ⟨l, h1, h2⟩)
        · exact (hs.xs a ((hfut a).1 (hXfut a h))).2 h
        · rcases (selfFixed_iff _).1 h with h | h | h
          · exact (hs.p5 (h ▸ hlab)).1
          · exact (hs.p6 (h ▸ hlab)).1
          · exact hs.p8 (h ▸ hlab)
        · simp only [List.getD_eq_getElem?_getD, h1, Option.getD_some] at h2
          by_contra hc; simp [hc] at h2
      · intro ha
        by_cases hb : Before xz.layers u a
        · exact Or.inl (Or.inl ((hs.xs a hb).1 ha))
        · by_cases hsf' : a = u ∧ selfFixed lab = true
          · exact Or.inl (Or.inr hsf')
          · right
            have hav : a ∈ vars := by
              rw [hmv]
              refine ⟨Or.inr fun h => hb ((hfut a).1 h), (hs.image a ha).1, (hs.image a ha).2, ?_⟩
              by_cases hau : a = u
              · subst hau
                rw [hun, hun]
                have h4 : lab ≠ .plane .XY := by rintro rfl; exact (hs.p4 hlab).1 ha
                have h5 : ¬ (lab = .plane .XZ ∨ lab = .plane .YZ ∨ lab = .axis .Z) := by
                  rw [← selfFixed_iff]; exact fun h => hsf' ⟨rfl, h⟩
                exact label_cases h4 h5
              · by_contra hc
                push Not at hc
                exact hb (hs.p1 a ha hau hc.1 hc.2)
            obtain ⟨l, hl'⟩ := List.mem_iff_getElem?.1 hav
            exact ⟨l, hl', by simp [List.getD_eq_getElem?_getD, hl', ha]⟩
    rw [hch]
    refine ⟨?_, ?_, ?_, ?_⟩
    · intro g hg
      rw [(hord _ _ _).2, hfut] at hg
      have := hs.zs g hg
      unfold ind
      split
      · rename_i h; exact (sv_iff _ _ _).2 (this.2 h)
      · rename_i h; exact (sv_iff0 _ _ _).2 fun h' => h (this.1 h')
    · intro g hg
      rw [(hord _ _ _).2] at hg
      simp only [Finset.mem_sdiff, Finset.mem_singleton, hfut] at hg
      obtain ⟨⟨h1, h2⟩, h3⟩ := hg
      constructor
      · intro lg hlg hY' hZ'
        rw [sv_iff0]
        intro hodd
        exact h2 (hs.p2 g h1 hodd h3 (fun h => hY' (hlg.unique h)) (fun h => hZ' (hlg.unique h)))
      · intro hY'
        have := hs.p3 g h3 hY' h2
        unfold ind
        split
        · rename_i h; rw [(sv_iff _ _ _).2 (this.1 h)]; decide
        · rename_i h; rw [(sv_iff0 _ _ _).2 fun h' => h (this.2 h')]; decide
    · rintro rfl
      have := hs.p9 hlab
      unfold ind
      split
      · rename_i h; rw [(sv_iff0 _ _ _).2 (this.1 h)]; decide
      · rename_i h
        have : xz.og.InOdd s u := by by_contra hc; exact h (this.2 hc)
        rw [(sv_iff _ _ _).2 this]; decide
    · intro h1 h2
      rcases lab with p | p <;> cases p
      · simpa [sv_iff] using (hs.p4 hlab).2
      · simpa [sv_iff0] using (hs.p6 hlab).2
      · simpa [sv_iff] using (hs.p5 hlab).2
      · simpa [sv_iff] using (hs.p7 hlab)
      · simp at h1
      · simp at h2

theorem reconstruct_spec (xz : XZCorrections) (hv : xz.og.Valid) (hl : LayersOk xz.og xz.layers)
    (ord : SetOrd) (hord : ord.Valid)
    (hx : ∀ u, ∀ v ∈ (xz.x.get? u).getD ∅, v ∈ xz.og.nodes ∧ v ∉ xz.og.inputs ∧ Before xz.layers u v)
    (l : List ℕ) (hlm : ∀ u ∈ l, u ∈ xz.og.nodes ∧ u ∉ xz.og.outputs) (hn : l.Nodup) (d : PyDict ℕ (Finset ℕ)) :
    (∃ d', xz.reconstruct ord l d = .ok d' ∧ (d.keys.Nodup → d'.keys.Nodup) ∧
      (∀ u ∈ l, ∃ s, d'.get? u = some s ∧ NodeFlow xz.og xz.layers ((xz.x.get? u).getD ∅) ((xz.z.get? u).getD ∅) u s) ∧
      (∀ u, u ∉ l → d'.get? u = d.get? u)) ∨
    (xz.reconstruct ord l d = .error .flowError ∧
      ∃ u ∈ l, ¬ ∃ s, NodeFlow xz.og xz.layers ((xz.x.get? u).getD ∅) ((xz.z.get? u).getD ∅) u s) := by
  induction l generalizing d with
  | nil => exact Or.inl ⟨d, rfl, id, by simp, by simp⟩
  | cons u l ih =>
    rw [List.nodup_cons] at hn
    obtain ⟨hu, huo⟩ := hlm u (by simp)
    obtain ⟨fut, hf, hfut⟩ := futureOf_spec hl hu
    obtain ⟨r, h1, h2, h3⟩ := solvePauliCorrectionSet_spec xz hv hl ord hord hu huo hfut (hx u)
    simp only [reconstruct, hf, bind, Except.bind]
    rw [h1]
    cases r with
    | none => exact Or.inr ⟨rfl, u, by simp, h3 rfl⟩
    | some s =>
      simp only []
      rcases ih (fun u hu => hlm u (by simp [hu])) hn.2 (d.set u s) with ⟨d', g0, g1, g2, g3⟩ | ⟨g0, w, hw, g1⟩
      · refine Or.inl ⟨d', g0, fun h => g1 (PyDict.keys_set_nodup h _ _), ?_, ?_⟩
        · intro w hw
          rcases List.mem_cons.1 hw with rfl | hw
          · exact ⟨s, by rw [g3 _ hn.1, PyDict.get?_set_self], h2 s rfl⟩
          · exact g2 w hw
        · intro w hw
          rw [List.mem_cons] at hw
          push Not at hw
          rw [g3 w hw.2, PyDict.get?_set_ne _ _ (Ne.symm hw.1)]
      · exact Or.inr ⟨g0, w, by simp [hw], g1⟩

/-- `f` is a Pauli flow on the open graph of `xz`, with the same layers, whose corrections are those of `xz`:
`u` triggers an X (Z) correction on `w` exactly when `w` is in the correction set of `u` (in its odd neighbourhood) and
comes after `u`. -/
structure Realises (xz : XZCorrections) (f : Flow) : Prop where
  og : f.og = xz.og
  layers : f.layers = xz.layers
  flow : IsPauliFlow f
  xs : ∀ u w, (∃ s, xz.x.get? u = some s ∧ w ∈ s) ↔ (∃ s, f.corr.get? u = some s ∧ w ∈ s) ∧ Before xz.layers u w
  zs : ∀ u w, (∃ s, xz.z.get? u = some s ∧ w ∈ s) ↔ (∃ s, f.corr.get? u = some s ∧ f.og.InOdd s w) ∧ Before xz.layers u w

/-- The X corrections are on nodes that can be in a correction set, the Z corrections are on nodes of the graph. -/
structure Legal (xz : XZCorrections) : Prop where
  x : ∀ u s v, xz.x.get? u = some s → v ∈ s → v ∈ xz.og.nodes ∧ v ∉ xz.og.inputs
  z : ∀ u s v, xz.z.get? u = some s → v ∈ s → v ∈ xz.og.nodes

theorem mem_getD {d : PyDict ℕ (Finset ℕ)} {u w : ℕ} : w ∈ (d.get? u).getD ∅ ↔ ∃ s, d.get? u = some s ∧ w ∈ s := by
  cases d.get? u <;> simp

/-- C32: if the corrections are well formed and the X corrections are on non-input nodes, `to_pauliflow` either returns a
well-formed Pauli flow with exactly the given corrections, or raises `FlowError`; in the second case there is no such
flow. Missing for the full property: X corrections on input nodes are not rejected, see `C32_input_correction`. -/
theorem C32_to_pauliflow_partial (xz : XZCorrections) (hv : xz.og.Valid) (hc : CorrectionsOk xz) (hleg : xz.Legal)
    (ord : SetOrd) (hord : ord.Valid) :
    (∃ f, xz.toPauliFlow ord = .ok f ∧ Realises xz f) ∨
    (xz.toPauliFlow ord = .error .flowError ∧ ¬ ∃ f, Realises xz f) := by
  have hl := hc.layers
  have hm := (xz.og.postInit_ok hv.post).1
  have hkeys : ∀ u, u ∈ xz.og.measurements.keys ↔ u ∈ xz.og.nodes ∧ u ∉ xz.og.outputs := by
    intro u
    have : u ∈ xz.og.measurements.keys.toFinset ↔ u ∈ xz.og.nodes \ xz.og.outputs.toFinset := by rw [hm]
    simpa using this
  have hx : ∀ u, ∀ v ∈ (xz.x.get? u).getD ∅, v ∈ xz.og.nodes ∧ v ∉ xz.og.inputs ∧ Before xz.layers u v := by
    intro u v hvx
    obtain ⟨s, h1, h2⟩ := mem_getD.1 hvx
    obtain ⟨h3, h4⟩ := hleg.x u s v h1 h2
    exact ⟨h3, h4, hc.x_later u s v h1 h2 h3⟩
  have hz : ∀ u, ∀ v ∈ (xz.z.get? u).getD ∅, Before xz.layers u v := by
    intro u v hvx
    obtain ⟨s, h1, h2⟩ := mem_getD.1 hvx
    exact hc.z_later u s v h1 h2 (hleg.z u s v h1 h2)
  rcases reconstruct_spec xz hv hl ord hord hx xz.og.measurements.keys (fun u hu => (hkeys u).1 hu) hv.meas_keys [] with
    ⟨d, h1, -, h2, h3⟩ | ⟨h1, u, hu, h2⟩
  · left
    refine ⟨⟨xz.og, d, xz.layers⟩, by simp only [toPauliFlow, h1, bind, Except.bind, pure, Except.pure], rfl, rfl, ?_, ?_, ?_⟩
    · have key : ∀ u s, d.get? u = some s →
          NodeFlow xz.og xz.layers ((xz.x.get? u).getD ∅) ((xz.z.get? u).getD ∅) u s := by
        intro u s hs
        by_cases hu : u ∈ xz.og.measurements.keys
        · obtain ⟨t, ht, hf⟩ := h2 u hu
          rw [hs] at ht
          rw [Option.some.inj ht]; exact hf
        · rw [h3 u hu] at hs; simp at hs
      refine ⟨⟨?_, fun u s v hs hvs => (key u s hs).image v hvs, hl⟩, fun u s hs => (key u s hs).p1, fun u s hs => (key u s hs).p2,
        fun u s hs => (key u s hs).p3, fun u s hs => (key u s hs).p4, fun u s hs => (key u s hs).p5,
        fun u s hs => (key u s hs).p6, fun u s hs => (key u s hs).p7, fun u s hs => (key u s hs).p8,
        fun u s hs => (key u s hs).p9⟩
      intro u
      rw [← hkeys]
      constructor
      · rintro ⟨s, hs⟩
        by_contra hu
        have hs' : d.get? u = some s := hs
        rw [h3 u hu] at hs'; simp at hs'
      · intro hu
        obtain ⟨t, ht, -⟩ := h2 u hu
        exact ⟨t, ht⟩
    · intro u w
      rw [← mem_getD]
      constructor
      · intro h
        have hb := (hx u w h).2.2
        obtain ⟨s, hs, -⟩ := mem_getD.1 h
        obtain ⟨t, ht, hf⟩ := h2 u ((hkeys u).2 (hc.domain u (Or.inl ⟨s, hs⟩)))
        exact ⟨⟨t, ht, (hf.xs w hb).2 h⟩, hb⟩
      · rintro ⟨⟨s, hs, hw⟩, hb⟩
        have hu : u ∈ xz.og.measurements.keys := by
          by_contra hu
          have hs' : d.get? u = some s := hs
          rw [h3 u hu] at hs'; simp at hs'
        obtain ⟨t, ht, hf⟩ := h2 u hu
        have : t = s := Option.some.inj (ht.symm.trans hs)
        subst this
        exact (hf.xs w hb).1 hw
    · intro u w
      rw [← mem_getD]
      constructor
      · intro h
        have hb := hz u w h
        obtain ⟨s, hs, -⟩ := mem_getD.1 h
        obtain ⟨t, ht, hf⟩ := h2 u ((hkeys u).2 (hc.domain u (Or.inr ⟨s, hs⟩)))
        exact ⟨⟨t, ht, (hf.zs w hb).2 h⟩, hb⟩
      · rintro ⟨⟨s, hs, hw⟩, hb⟩
        have hu : u ∈ xz.og.measurements.keys := by
          by_contra hu
          have hs' : d.get? u = some s := hs
          rw [h3 u hu] at hs'; simp at hs'
        obtain ⟨t, ht, hf⟩ := h2 u hu
        have : t = s := Option.some.inj (ht.symm.trans hs)
        subst this
        exact (hf.zs w hb).1 hw
  · right
    refine ⟨by simp only [toPauliFlow, h1, bind, Except.bind], ?_⟩
    rintro ⟨f, hf⟩
    apply h2
    obtain ⟨hog, hlay, hfl, hfx, hfz⟩ := hf
    obtain ⟨fog, corr, flay⟩ := f
    simp only at hog hlay
    subst hog hlay
    obtain ⟨s, hs⟩ := (hfl.domain u).2 ((hkeys u).1 hu)
    have hs' : corr.get? u = some s := hs
    refine ⟨s, fun v hvs => hfl.image u s v hs hvs, fun v hb => ?_, fun v hb => ?_, hfl.p1 u s hs, hfl.p2 u s hs, hfl.p3 u s hs,
      hfl.p4 u s hs, hfl.p5 u s hs, hfl.p6 u s hs, hfl.p7 u s hs, hfl.p8 u s hs, hfl.p9 u s hs⟩
    · rw [mem_getD, hfx u v]
      constructor
      · exact fun h => ⟨⟨s, hs, h⟩, hb⟩
      · rintro ⟨⟨t, ht, h⟩, -⟩
        have : t = s := Option.some.inj (ht.symm.trans hs)
        exact this ▸ h
    · rw [mem_getD, hfz u v]
      constructor
      · exact fun h => ⟨⟨s, hs, h⟩, hb⟩
      · rintro ⟨⟨t, ht, h⟩, -⟩
        have : t = s := Option.some.inj (ht.symm.trans hs)
        exact this ▸ h

/-- C32: every Pauli flow is recovered, up to the choice of the corrections of the past, from its corrections: `to_pauliflow`
of the result of `to_xzcorrections` succeeds, and gives a Pauli flow with the same corrections. -/
theorem C32_round_trip (f : Flow) (hv : f.og.Valid) (hf : IsPauliFlow f) (ord ord' : SetOrd) (hord : ord.Valid)
    (hord' : ord'.Valid) :
    ∃ xz f', f.toXZPauli ord = .ok xz ∧ xz.toPauliFlow ord' = .ok f' ∧ Realises xz f ∧ Realises xz f' := by
  have hb := hf.toFlowBase
  obtain ⟨xz, h1, h2, h3, h4, h5⟩ := Flow.toXZPauli_ok hb ord hord
  have hp : ∀ u w, w ∈ f.p u ↔ ∃ s, f.corr.get? u = some s ∧ w ∈ s := fun u w => mem_getD
  have hpo : ∀ u w, f.og.InOdd (f.p u) w ↔ ∃ s, f.corr.get? u = some s ∧ f.og.InOdd s w := by
    intro u w
    unfold Flow.p
    cases f.corr.get? u with
    | none => simp [OpenGraph.InOdd]
    | some s => simp
  have hr : Realises xz f := by
    refine ⟨h2.symm, h3.symm, hf, fun u w => ?_, fun u w => ?_⟩
    · rw [← hp, h3]; exact h4 u w
    · rw [← hpo, h3]; exact h5 u w
  have hne := toXZ_nonempty (ord := ord) (Or.inl h1)
  have hdom : ∀ u s, f.corr.get? u = some s → u ∈ xz.og.nodes ∧ u ∉ xz.og.outputs := by
    intro u s hs; rw [h2]; exact (hb.domain u).1 ⟨s, hs⟩
  have hc : CorrectionsOk xz := by
    refine ⟨?_, by rw [h2, h3]; exact hb.layers, ?_, ?_⟩
    · rintro u (⟨s, hs⟩ | ⟨s, hs⟩)
      · obtain ⟨w, hw⟩ := hne.1 u s hs
        obtain ⟨⟨t, ht, -⟩, -⟩ := (hr.xs u w).1 ⟨s, hs, hw⟩
        exact hdom u t ht
      · obtain ⟨w, hw⟩ := hne.2 u s hs
        obtain ⟨⟨t, ht, -⟩, -⟩ := (hr.zs u w).1 ⟨s, hs, hw⟩
        exact hdom u t ht
    · intro u s v hs hvs _; exact ((hr.xs u v).1 ⟨s, hs, hvs⟩).2
    · intro u s v hs hvs _; exact ((hr.zs u v).1 ⟨s, hs, hvs⟩).2
  have hleg : xz.Legal := by
    constructor
    · intro u s v hs hvs
      obtain ⟨⟨t, ht, h⟩, -⟩ := (hr.xs u v).1 ⟨s, hs, hvs⟩
      rw [h2]; exact hb.image u t v ht h
    · intro u s v hs hvs
      obtain ⟨⟨t, ht, h⟩, -⟩ := (hr.zs u v).1 ⟨s, hs, hvs⟩
      rw [h2]; exact h.mem_nodes hv.edge_mem
  rcases C32_to_pauliflow_partial xz (by rw [h2]; exact hv) hc hleg ord' hord' with ⟨f', h6, h7⟩ | ⟨-, h6⟩
  · exact ⟨xz, f', h1, h6, hr, h7⟩
  · exact absurd ⟨f, hr⟩ h6

/-- C32 (`to_causalflow`): succeeds exactly when the X corrections are a causal flow for the layers. -/
theorem C32_to_causalflow (xz : XZCorrections) (hv : xz.og.Valid) (hk : xz.x.keys.Nodup) (ord : SetOrd) (hord : ord.Valid) (f : Flow) :
    xz.toCausalFlow ord = .ok f ↔ f = ⟨xz.og, xz.x, xz.layers⟩ ∧ IsCausalFlow f := by
  have := C29_causalflow ⟨xz.og, xz.x, xz.layers⟩ hv hk ord hord
  unfold toCausalFlow
  rw [bindU_ok_iff, this]
  simp only [pure, Except.pure, Except.ok.injEq]
  constructor
  · rintro ⟨h, rfl⟩; exact ⟨rfl, h⟩
  · rintro ⟨rfl, h⟩; exact ⟨h, rfl⟩

theorem gflowFunction_spec (x : PyDict ℕ (Finset ℕ)) (l : PyDict ℕ Measurement) (hn : l.keys.Nodup) (d d' : PyDict ℕ (Finset ℕ))
    (h : gflowFunction x l d = .ok d') : (d.keys.Nodup → d'.keys.Nodup) ∧
      ∀ u, (∀ m, l.get? u = some m → ∃ p, m.toPlaneOrAxis = .plane p ∧
        d'.get? u = some (if p = .XZ ∨ p = .YZ then insert u ((x.get? u).getD ∅) else (x.get? u).getD ∅)) ∧
      (l.get? u = none → d'.get? u = d.get? u) := by
  induction l generalizing d with
  | nil =>
    simp only [gflowFunction, Except.ok.injEq] at h
    subst h; simp
  | cons a l ih =>
    obtain ⟨i, m⟩ := a
    unfold gflowFunction at h
    obtain ⟨p, hp, h⟩ := (bind_ok_iff _ _ _).1 h
    simp only [PyDict.keys, List.map_cons, List.nodup_cons] at hn
    obtain ⟨h1, h2⟩ := ih hn.2 _ h
    have hni : PyDict.get? l i = none := (PyDict.get?_eq_none_iff _ _).2 hn.1
    refine ⟨fun hd => h1 (PyDict.keys_set_nodup hd _ _), fun u => ?_⟩
    rw [PyDict.get?_cons]
    by_cases hu : i = u
    · subst hu
      refine ⟨fun m' hm => ⟨p, ?_, ?_⟩, by simp⟩
      · simp only [if_true, Option.some.injEq] at hm
        subst hm
        cases m <;> simp [Measurement.toPlane, Measurement.toPlaneOrAxis] at hp ⊢
        exact hp
      · rw [(h2 i).2 hni, PyDict.get?_set_self]
    · rw [if_neg hu]
      refine ⟨(h2 u).1, fun hl => ?_⟩
      rw [(h2 u).2 hl, PyDict.get?_set_ne _ _ hu]

/-- C32 (`to_gflow`): a flow that is returned is a gflow with the layers of the corrections; the correction set of a node
is made of the X corrections it triggers, and of the node itself when it is measured in the XZ or YZ plane. -/
theorem C32_to_gflow (xz : XZCorrections) (hv : xz.og.Valid) (ord : SetOrd) (hord : ord.Valid) (f : Flow)
    (h : xz.toGFlow ord = .ok f) :
    f.og = xz.og ∧ f.layers = xz.layers ∧ IsGFlow f ∧ ∀ u s v, f.corr.get? u = some s → (v ∈ s ↔
      (∃ t, xz.x.get? u = some t ∧ v ∈ t) ∨ (v = u ∧ (xz.og.HasLabel u (.plane .XZ) ∨ xz.og.HasLabel u (.plane .YZ)))) := by
  unfold toGFlow at h
  obtain ⟨corr, h1, h⟩ := (bind_ok_iff _ _ _).1 h
  obtain ⟨h2, h3⟩ := (bindU_ok_iff _ _ _).1 h
  have h3' : (⟨xz.og, corr, xz.layers⟩ : Flow) = f := Except.ok.inj h3
  obtain ⟨g1, g2⟩ := gflowFunction_spec _ _ hv.meas_keys _ _ h1
  have hg := (C29_gflow ⟨xz.og, corr, xz.layers⟩ hv (g1 (by simp [PyDict.keys])) ord hord).1 h2
  subst h3'
  refine ⟨rfl, rfl, hg, ?_⟩
  intro u s v hs
  have hs' : corr.get? u = some s := hs
  rw [← mem_getD]
  obtain ⟨hun, huo⟩ := (hg.domain u).1 ⟨s, hs⟩
  obtain ⟨p, m, hm, hp⟩ := hg.planes u hun huo
  obtain ⟨p', hp', hc⟩ := (g2 u).1 m hm
  rw [hp] at hp'
  have : p = p' := by simpa using hp'
  subst this
  have hlab : ∀ q, xz.og.HasLabel u (.plane q) ↔ q = p := by
    intro q
    constructor
    · intro h; simpa using h.unique ⟨m, hm, hp⟩
    · rintro rfl; exact ⟨m, hm, hp⟩
  rw [hlab, hlab]
  have hs2 : s = _ := Option.some.inj (hs'.symm.trans hc)
  rw [hs2]
  by_cases hpp : p = .XZ ∨ p = .YZ
  · rw [if_pos hpp, Finset.mem_insert]
    constructor
    · rintro (h | h)
      · exact Or.inr ⟨h, hpp.imp Eq.symm Eq.symm⟩
      · exact Or.inl h
    · rintro (h | h)
      · exact Or.inr h
      · exact Or.inl h.1
  · rw [if_neg hpp]
    constructor
    · exact Or.inl
    · rintro (h | h)
      · exact h
      · exact absurd (h.2.imp Eq.symm Eq.symm) hpp

/-- An edge between two input nodes, one of which is the output. -/
noncomputable def inputOg : OpenGraph where
  nodes := {0, 1}
  edges := [(0, 1)]
  inputs := [0, 1]
  outputs := [1]
  measurements := [(0, .bloch ⟨1/4, .XY⟩)]
  cliffords := []

theorem inputOg_valid : inputOg.Valid where
  post := rfl
  edge_mem := by simp [inputOg]
  edge_once := by simp [inputOg]
  meas_keys := by simp [inputOg, PyDict.keys]
  clif_keys := by simp [inputOg, PyDict.keys]

/-- Node 0 triggers an X correction on the input node 1. -/
noncomputable def inputXZ : XZCorrections := ⟨inputOg, [(0, {1})], [], [{1}, {0}]⟩

/-- C32 fails without the condition on the input nodes: these corrections are well formed, `to_pauliflow` returns a flow,
and this flow is not well formed (`check_well_formed` raises), and no Pauli flow has these corrections. -/
theorem C32_input_correction : inputXZ.og.Valid ∧ inputXZ.checkWellFormed exOrd = .ok () ∧
    ∃ f, inputXZ.toPauliFlow exOrd = .ok f ∧ f.checkPauli exOrd = .error .flowError ∧ ¬ IsPauliFlow f ∧
      ¬ ∃ f', Realises inputXZ f' := by
  refine ⟨inputOg_valid, rfl, ⟨inputOg, [(0, {1})], [{1}, {0}]⟩, rfl, rfl, fun h => ?_, ?_⟩
  · have := (C29_pauliflow _ inputOg_valid (by simp [PyDict.keys]) exOrd exOrd_valid).2 h
    cases this
  · rintro ⟨f', h1, h2, h3, h4, h5⟩
    obtain ⟨⟨s, hs, hs1⟩, -⟩ := (h4 0 1).1 ⟨{1}, rfl, by simp⟩
    have := (h3.image 0 s 1 hs hs1).2
    rw [h1] at this
    simp [inputXZ, inputOg] at this

/-- `to_causalflow` and `to_gflow` do not look at the Z corrections. -/
theorem C32_z_corrections_not_checked :
    ∃ xz : XZCorrections, xz.og.Valid ∧ CorrectionsOk xz ∧ xz.z = [] ∧ ∃ f, xz.toCausalFlow exOrd = .ok f ∧
      xz.toGFlow exOrd = .ok f ∧ ∃ xz', f.toXZC = .ok xz' ∧ xz'.z ≠ [] := by
  refine ⟨⟨exOg exLabels, [(0, {1}), (1, {2}), (2, {3})], [], [{3}, {2}, {1}, {0}]⟩, exOg_valid _,
    (C29_xzcorrections _ (exOg_valid _) exOrd exOrd_valid).1 rfl, rfl, exFlow exLabels, rfl, rfl, _, rfl, ?_⟩
  intro h; cases h

/-! Non-vacuity: the Pauli flow of the path, where nodes 1 and 2 are measured before 0 and correct it. -/

example : ∃ xz f', exFlowP.toXZPauli exOrd = .ok xz ∧ xz.toPauliFlow exOrd = .ok f' ∧ Realises xz exFlowP ∧ Realises xz f' :=
  C32_round_trip exFlowP (exOg_valid _) exFlowP_pauli exOrd exOrd exOrd_valid exOrd_valid

/-- The same corrections, except that the Z correction is missing: `FlowError`. -/
example : (⟨exOg exLabelsP, [(0, {3}), (1, {3})], [], [{3}, {0}, {1, 2}]⟩ : XZCorrections).toPauliFlow exOrd =
    .error .flowError := rfl

end XZCorrections
end Graphix
