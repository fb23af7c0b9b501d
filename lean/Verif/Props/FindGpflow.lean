import Verif.Spec.Focused
import Verif.Proofs.FindGpflowMat

/-!
# Property C28: the search for a gflow or a Pauli flow is sound and complete
-/

namespace Graphix
open GF2

theorem hasLabel_iff {og : OpenGraph} (hv : og.Valid) {v : ℕ} {l : Label} :
    og.HasLabel v l ↔ (v ∈ og.nodes ∧ v ∉ og.outputs) ∧ Aog.labelOf og v = l := by
  have hk : v ∈ og.measurements.keys ↔ v ∈ og.nodes ∧ v ∉ og.outputs := by
    rw [← List.mem_toFinset, (OpenGraph.postInit_ok hv.post).1]; simp
  rw [← hk, ← PyDict.get?_isSome_iff, Option.isSome_iff_exists]
  unfold OpenGraph.HasLabel Aog.labelOf
  constructor
  · rintro ⟨m, h1, h2⟩; exact ⟨⟨m, h1⟩, by rw [h1]; exact h2⟩
  · rintro ⟨⟨m, h1⟩, h2⟩; rw [h1] at h2; exact ⟨m, h1, h2⟩

/-- The non-input nodes. -/
abbrev OpenGraph.nin (og : OpenGraph) : Finset ℕ := og.nodes \ og.inputs.toFinset

/-- **Focusing.** A Pauli flow can be turned into one whose corrections satisfy the linear equations of the algorithm. -/
theorem focusing {og : OpenGraph} (hv : og.Valid) {p : ℕ → Finset ℕ} {lt : ℕ → ℕ → Prop} (h : IsPauliFlowOf og p lt) :
    ∃ x : ℕ → ℕ → ZMod 2, ∀ u ∈ og.nodes, u ∉ og.outputs → (∀ k, x u k ≠ 0 → k ∈ og.nin) ∧
      (∀ v ∈ og.nodes, v ∉ og.outputs → demM og og.nin v (x u) = if v = u then 1 else 0) ∧
      (∀ v ∈ og.nodes, v ∉ og.outputs → demN og og.nin v (x u) = 1 → lt u v) := by
  classical
  suffices hh : ∀ n u, u ∈ og.nodes → u ∉ og.outputs → (og.nodes.filter (lt u)).card = n → ∃ x : ℕ → ZMod 2,
      (∀ k, x k ≠ 0 → k ∈ og.nin) ∧ (∀ v ∈ og.nodes, v ∉ og.outputs → demM og og.nin v x = if v = u then 1 else 0) ∧
      (∀ v ∈ og.nodes, v ∉ og.outputs → demN og og.nin v x = 1 → lt u v) by
    choose! x hx using fun u h1 h2 => hh _ u h1 h2 rfl
    exact ⟨x, hx⟩
  intro n
  induction n using Nat.strong_induction_on with
  | _ n ih =>
    intro u hu huo hn
    have hsub : p u ⊆ og.nin := fun v hvp => by
      obtain ⟨h1, h2⟩ := h.image u hu huo v hvp
      simp [h1, h2]
    have hodd : ∀ v, oddV og og.nin (indV (p u)) v = 1 ↔ og.InOdd (p u) v := fun v => oddV_indV og hsub v
    have hin : ∀ v, indV (p u) v = 1 ↔ v ∈ p u := fun v => indV_eq_one
    have hlab : ∀ {v l}, og.HasLabel v l ↔ (v ∈ og.nodes ∧ v ∉ og.outputs) ∧ Aog.labelOf og v = l := hasLabel_iff hv
    set B := og.nodes.filter fun v => v ∉ og.outputs ∧ v ≠ u ∧ demM og og.nin v (indV (p u)) = 1 with hB
    have hBlt : ∀ v ∈ B, v ∈ og.nodes ∧ v ∉ og.outputs ∧ v ≠ u ∧ lt u v := by
      intro v hvB
      obtain ⟨h1, h2, h3, h4⟩ := Finset.mem_filter.1 hvB
      refine ⟨h1, h2, h3, ?_⟩
      unfold demM at h4
      have hne : ∀ l, Aog.labelOf og v ≠ l → ¬ og.HasLabel v l := fun l hl hl' => hl (hlab.1 hl').2
      rcases hl : Aog.labelOf og v with q | q <;> cases q <;> rw [hl] at h4 <;> simp only [] at h4
      · exact h.p2 u hu huo v h1 ((hodd v).1 h4) h3 (hne _ (by rw [hl]; simp)) (hne _ (by rw [hl]; simp))
      · exact h.p1 u hu huo v ((hin v).1 h4) h3 (hne _ (by rw [hl]; simp)) (hne _ (by rw [hl]; simp))
      · exact h.p1 u hu huo v ((hin v).1 h4) h3 (hne _ (by rw [hl]; simp)) (hne _ (by rw [hl]; simp))
      · exact h.p2 u hu huo v h1 ((hodd v).1 h4) h3 (hne _ (by rw [hl]; simp)) (hne _ (by rw [hl]; simp))
      · by_contra hnlt
        have h5 := h.p3 u hu huo v h3 (hlab.2 ⟨⟨h1, h2⟩, hl⟩) hnlt
        rw [← hin, ← hodd] at h5
        rcases zmod2_cases (indV (p u) v) with e | e
        · rw [e, add_zero] at h4
          exact absurd (h5.2 h4) (by rw [e]; decide)
        · rw [h5.1 e, e] at h4
          exact absurd h4 (by decide)
      · exact h.p1 u hu huo v ((hin v).1 h4) h3 (hne _ (by rw [hl]; simp)) (hne _ (by rw [hl]; simp))
    have hrec : ∀ v ∈ B, ∃ x : ℕ → ZMod 2, (∀ k, x k ≠ 0 → k ∈ og.nin) ∧
        (∀ w ∈ og.nodes, w ∉ og.outputs → demM og og.nin w x = if w = v then 1 else 0) ∧
        (∀ w ∈ og.nodes, w ∉ og.outputs → demN og og.nin w x = 1 → lt v w) := by
      intro v hvB
      obtain ⟨h1, h2, h3, h4⟩ := hBlt v hvB
      refine ih _ ?_ v h1 h2 rfl
      rw [← hn]
      refine Finset.card_lt_card ⟨fun w hw => ?_, fun hc => ?_⟩
      · rw [Finset.mem_filter] at hw ⊢
        exact ⟨hw.1, h.trans _ _ _ h4 hw.2⟩
      · have := hc (Finset.mem_filter.2 ⟨h1, h4⟩)
        exact h.irrefl v (Finset.mem_filter.1 this).2
    choose! y hy1 hy2 hy3 using hrec
    refine ⟨fun k => indV (p u) k + ∑ b ∈ B, y b k, ?_, ?_, ?_⟩
    · intro k hk
      by_contra hkn
      refine hk ?_
      have e1 : indV (p u) k = 0 := by unfold indV; rw [if_neg fun hkp => hkn (hsub hkp)]
      simp only [e1, zero_add]
      refine Finset.sum_eq_zero fun b hb => ?_
      by_contra hne
      exact hkn (hy1 b hb k hne)
    · intro v hvn hvo
      rw [demM_add_sum]
      have hs : ∑ b ∈ B, demM og og.nin v (y b) = if v ∈ B then 1 else 0 := by
        rw [Finset.sum_congr rfl fun b hb => hy2 b hb v hvn hvo, Finset.sum_ite_eq]
      rw [hs]
      by_cases hvu : v = u
      · subst hvu
        rw [if_pos rfl, if_neg (fun hb => (hBlt v hb).2.2.1 rfl), add_zero]
        unfold demM
        rcases hl : Aog.labelOf og v with q | q <;> cases q <;> simp only []
        · exact (hodd v).2 (h.p4 v hu huo (hlab.2 ⟨⟨hu, huo⟩, hl⟩)).2
        · exact (hin v).2 (h.p6 v hu huo (hlab.2 ⟨⟨hu, huo⟩, hl⟩)).1
        · exact (hin v).2 (h.p5 v hu huo (hlab.2 ⟨⟨hu, huo⟩, hl⟩)).1
        · exact (hodd v).2 (h.p7 v hu huo (hlab.2 ⟨⟨hu, huo⟩, hl⟩))
        · have h9 := h.p9 v hu huo (hlab.2 ⟨⟨hu, huo⟩, hl⟩)
          rw [← hin, ← hodd] at h9
          rcases zmod2_cases (indV (p v) v) with e | e
          · rw [e, add_zero]
            by_contra hc
            exact absurd (h9.2 hc) (by rw [e]; decide)
          · rw [e, zmod2_ne_one.1 (h9.1 e), zero_add]
        · exact (hin v).2 (h.p8 v hu huo (hlab.2 ⟨⟨hu, huo⟩, hl⟩))
      · rw [if_neg hvu]
        by_cases hd : demM og og.nin v (indV (p u)) = 1
        · rw [if_pos (Finset.mem_filter.2 ⟨hvn, hvo, hvu, hd⟩), hd]; decide
        · rw [if_neg (fun hb => hd (Finset.mem_filter.1 hb).2.2.2), zmod2_ne_one.1 hd, add_zero]
    · intro v hvn hvo hd
      rw [demN_add_sum] at hd
      by_cases h1 : demN og og.nin v (indV (p u)) = 1
      · have hne : ∀ l, Aog.labelOf og v ≠ l → ¬ og.HasLabel v l := fun l hl hl' => hl (hlab.1 hl').2
        unfold demN at h1
        rcases hl : Aog.labelOf og v with q | q
        · cases q <;> rw [hl] at h1 <;> simp only [] at h1
          · refine h.p1 u hu huo v ((hin v).1 h1) ?_ (hne _ (by rw [hl]; simp)) (hne _ (by rw [hl]; simp))
            rintro rfl
            exact (h.p4 v hu huo (hlab.2 ⟨⟨hu, huo⟩, hl⟩)).1 ((hin v).1 h1)
          · refine h.p2 u hu huo v hvn ((hodd v).1 h1) ?_ (hne _ (by rw [hl]; simp)) (hne _ (by rw [hl]; simp))
            rintro rfl
            exact (h.p6 v hu huo (hlab.2 ⟨⟨hu, huo⟩, hl⟩)).2 ((hodd v).1 h1)
          · have hvu : v ≠ u := by
              rintro rfl
              obtain ⟨h5, h6⟩ := h.p5 v hu huo (hlab.2 ⟨⟨hu, huo⟩, hl⟩)
              rw [(hin v).2 h5, (hodd v).2 h6] at h1
              exact absurd h1 (by decide)
            rcases zmod2_cases (indV (p u) v) with e | e
            · rw [e, add_zero] at h1
              exact h.p2 u hu huo v hvn ((hodd v).1 h1) hvu (hne _ (by rw [hl]; simp)) (hne _ (by rw [hl]; simp))
            · exact h.p1 u hu huo v ((hin v).1 e) hvu (hne _ (by rw [hl]; simp)) (hne _ (by rw [hl]; simp))
        · rw [hl] at h1; simp only [zero_ne_one] at h1
      · rw [zmod2_ne_one.1 h1, zero_add] at hd
        obtain ⟨b, hb, hb1⟩ : ∃ b ∈ B, demN og og.nin v (y b) ≠ 0 := by
          by_contra hcon
          push Not at hcon
          rw [Finset.sum_eq_zero hcon] at hd
          exact absurd hd (by decide)
        exact h.trans _ _ _ (hBlt b hb).2.2.2 (hy3 b hb v hvn hvo (zmod2_ne_zero.1 hb1))

theorem sum_idx {l : List ℕ} (hnd : l.Nodup) (g : ℕ → ZMod 2) :
    ∑ k ∈ Finset.range l.length, g k = ∑ y ∈ l.toFinset, g (l.idxOf y) := by
  refine Finset.sum_bij' (fun k _ => l.getD k 0) (fun y _ => l.idxOf y) ?_ ?_ ?_ ?_ ?_
  · intro k hk
    rw [getD_of_lt (Finset.mem_range.1 hk), List.mem_toFinset]; exact List.getElem_mem _
  · intro y hy
    exact Finset.mem_range.2 (List.idxOf_lt_length_of_mem (List.mem_toFinset.1 hy))
  · intro k hk
    rw [getD_of_lt (Finset.mem_range.1 hk)]; exact List.Nodup.idxOf_getElem hnd _ _
  · intro y hy
    rw [getD_of_lt (List.idxOf_lt_length_of_mem (List.mem_toFinset.1 hy)), List.getElem_idxOf]
  · intro k hk
    rw [getD_of_lt (Finset.mem_range.1 hk), List.Nodup.idxOf_getElem hnd]

namespace Aog
variable (a : Aog)

/-- The column of a node in a matrix, as a vector on the nodes. -/
def colV (C : GF2) (u k : ℕ) : ZMod 2 := if k ∈ a.nonInputs then C (a.nonInputs.idxOf k) (a.nonOutputs.idxOf u) else 0

theorem nin_eq : a.og.nin = a.nonInputs.toFinset := by
  ext v; rw [List.mem_toFinset, mem_nonInputs]; simp

/-- The entries of the two matrices. -/
structure IsMats (fd od : GF2) : Prop where
  fd : ∀ v ∈ a.nonOutputs, ∀ y ∈ a.nonInputs, fd (a.nonOutputs.idxOf v) (a.nonInputs.idxOf y) =
        fdEntry (labelOf a.og v) (decide (v = y)) (if a.og.Adj v y then 1 else 0)
  od : ∀ v ∈ a.nonOutputs, ∀ y ∈ a.nonInputs, od (a.nonOutputs.idxOf v) (a.nonInputs.idxOf y) =
        odEntry (labelOf a.og v) (decide (v = y)) (if a.og.Adj v y then 1 else 0)

variable {a} {fd od : GF2}

theorem rows_eq (hm : a.IsMats fd od) (hloop : ∀ v, (v, v) ∉ a.og.edges) {v : ℕ} (hv : v ∈ a.nonOutputs) {x : ℕ → ZMod 2}
    (hx : ∀ k, x k ≠ 0 → k ∈ a.nonInputs) :
    ∑ y ∈ a.nonInputs.toFinset, fd (a.nonOutputs.idxOf v) (a.nonInputs.idxOf y) * x y = demM a.og a.og.nin v x ∧
    ∑ y ∈ a.nonInputs.toFinset, od (a.nonOutputs.idxOf v) (a.nonInputs.idxOf y) * x y = demN a.og a.og.nin v x := by
  have hself : ¬ a.og.Adj v v := fun h => by rcases h with h | h <;> exact hloop v h
  have hdiag : ∑ y ∈ a.nonInputs.toFinset, (if v = y then 1 else 0) * x y = x v := by
    simp only [ite_mul, one_mul, zero_mul]
    rw [Finset.sum_ite_eq]
    split
    · rfl
    · rename_i h
      by_contra hne
      exact h (List.mem_toFinset.2 (hx v fun e => hne e.symm))
  have hodd : ∑ y ∈ a.nonInputs.toFinset, (if a.og.Adj v y then 1 else 0) * x y = oddV a.og a.og.nin x v := by
    unfold oddV; rw [nin_eq]
  have hboth : ∑ y ∈ a.nonInputs.toFinset, (if v = y then 1 else if a.og.Adj v y then 1 else 0) * x y =
      oddV a.og a.og.nin x v + x v := by
    rw [← hodd, show x v = _ from hdiag.symm, ← Finset.sum_add_distrib]
    refine Finset.sum_congr rfl fun y _ => ?_
    by_cases h : v = y
    · subst h; simp [hself]
    · simp [h]
  have e1 : ∑ y ∈ a.nonInputs.toFinset, fd (a.nonOutputs.idxOf v) (a.nonInputs.idxOf y) * x y =
      ∑ y ∈ a.nonInputs.toFinset, fdEntry (labelOf a.og v) (decide (v = y)) (if a.og.Adj v y then 1 else 0) * x y :=
    Finset.sum_congr rfl fun y hy => by rw [hm.fd v hv y (List.mem_toFinset.1 hy)]
  have e2 : ∑ y ∈ a.nonInputs.toFinset, od (a.nonOutputs.idxOf v) (a.nonInputs.idxOf y) * x y =
      ∑ y ∈ a.nonInputs.toFinset, odEntry (labelOf a.og v) (decide (v = y)) (if a.og.Adj v y then 1 else 0) * x y :=
    Finset.sum_congr rfl fun y hy => by rw [hm.od v hv y (List.mem_toFinset.1 hy)]
  rw [e1, e2]
  unfold demM demN
  rcases labelOf a.og v with q | q <;> cases q <;>
    simp only [fdEntry, odEntry, decide_eq_true_eq, hdiag, hodd, hboth, zero_mul, Finset.sum_const_zero, and_self]

/-- The relation of the ordering matrix `N · C` on the nodes: `u` precedes `v`. -/
def ordEdge (a : Aog) (od C : GF2) (u v : ℕ) : Prop :=
  u ∈ a.nonOutputs ∧ v ∈ a.nonOutputs ∧
    ∑ k ∈ Finset.range a.nonInputs.length, od (a.nonOutputs.idxOf v) k * C k (a.nonOutputs.idxOf u) = 1

/-- `M · C = 1`. -/
def IsRinv (a : Aog) (fd C : GF2) : Prop := ∀ u ∈ a.nonOutputs, ∀ v ∈ a.nonOutputs,
  ∑ k ∈ Finset.range a.nonInputs.length, fd (a.nonOutputs.idxOf v) k * C k (a.nonOutputs.idxOf u) = if v = u then 1 else 0

theorem colV_supp {C : GF2} {u k : ℕ} (h : a.colV C u k ≠ 0) : k ∈ a.nonInputs := by
  unfold colV at h
  by_contra hk
  exact h (if_neg hk)

theorem mul_eq (hm : a.IsMats fd od) (hloop : ∀ v, (v, v) ∉ a.og.edges) (C : GF2) {u v : ℕ} (hv : v ∈ a.nonOutputs) :
    ∑ k ∈ Finset.range a.nonInputs.length, fd (a.nonOutputs.idxOf v) k * C k (a.nonOutputs.idxOf u) =
      demM a.og a.og.nin v (a.colV C u) ∧
    ∑ k ∈ Finset.range a.nonInputs.length, od (a.nonOutputs.idxOf v) k * C k (a.nonOutputs.idxOf u) =
      demN a.og a.og.nin v (a.colV C u) := by
  have h := rows_eq hm hloop hv (x := a.colV C u) (fun k hk => colV_supp hk)
  rw [← h.1, ← h.2, sum_idx a.nonInputs_nodup, sum_idx a.nonInputs_nodup]
  constructor <;> refine Finset.sum_congr rfl fun y hy => ?_ <;> unfold colV <;> rw [if_pos (List.mem_toFinset.1 hy)]

theorem isRinv_iff {C : GF2} : a.IsRinv fd C ↔
    toMat a.nonOutputs.length a.nonInputs.length fd * toMat a.nonInputs.length a.nonOutputs.length C = 1 := by
  constructor
  · intro h
    ext i j
    rw [Matrix.mul_apply, Matrix.one_apply]
    have hi := a.nonOutputs.getElem_mem i.2
    have hj := a.nonOutputs.getElem_mem j.2
    have := h _ hj _ hi
    rw [List.Nodup.idxOf_getElem a.nonOutputs_nodup, List.Nodup.idxOf_getElem a.nonOutputs_nodup, Finset.sum_range] at this
    rw [show (∑ k : Fin a.nonInputs.length, toMat a.nonOutputs.length a.nonInputs.length fd i k *
      toMat a.nonInputs.length a.nonOutputs.length C k j) = _ from this]
    refine if_congr ?_ rfl rfl
    rw [List.Nodup.getElem_inj_iff a.nonOutputs_nodup, Fin.ext_iff]
  · intro h u hu v hv
    have hu' := List.idxOf_lt_length_of_mem hu
    have hv' := List.idxOf_lt_length_of_mem hv
    have := congrFun (congrFun h ⟨_, hv'⟩) ⟨_, hu'⟩
    rw [Matrix.mul_apply, Matrix.one_apply] at this
    rw [Finset.sum_range, show (∑ k : Fin a.nonInputs.length, fd (a.nonOutputs.idxOf v) k * C k (a.nonOutputs.idxOf u)) = _ from this]
    refine if_congr ?_ rfl rfl
    rw [Fin.mk.injEq]
    exact ⟨fun e => idxOf_inj' hv hu e, fun e => by rw [e]⟩

end Aog

theorem nullity_eq {m n : ℕ} {a C : GF2} (h : toMat m n a * toMat n m C = 1) : m ≤ n ∧ (nullSpace m n a).1 = n - m := by
  obtain ⟨hli, hker⟩ := C25_null_space m n a
  have h1 : Module.finrank (ZMod 2) (rowSpace (nullSpace m n a).1 n (nullSpace m n a).2) = (nullSpace m n a).1 := by
    unfold rowSpace
    rw [finrank_span_eq_card hli, Fintype.card_fin]
  have h2 : rowSpace (nullSpace m n a).1 n (nullSpace m n a).2 = LinearMap.ker (toMat m n a).mulVecLin := by
    ext x
    rw [hker x, LinearMap.mem_ker, Matrix.mulVecLin_apply]
  have h3 : LinearMap.range (toMat m n a).mulVecLin = ⊤ := by
    rw [LinearMap.range_eq_top]
    intro y
    refine ⟨(toMat n m C).mulVec y, ?_⟩
    rw [Matrix.mulVecLin_apply, Matrix.mulVec_mulVec, h, Matrix.one_mulVec]
  have h4 := LinearMap.finrank_range_add_finrank_ker (toMat m n a).mulVecLin
  rw [h3, ← h2, h1, finrank_top, Module.finrank_fin_fun, Module.finrank_fin_fun] at h4
  omega

/-- Each vector of the kernel is a combination of the rows of `null_space`. -/
theorem nullSpace_comb {m n : ℕ} {a : GF2} {x : ℕ → ZMod 2} (h : ∀ i, i < m → ∑ k ∈ Finset.range n, a i k * x k = 0) :
    ∃ c : ℕ → ZMod 2, ∀ k, k < n → x k = ∑ t ∈ Finset.range (nullSpace m n a).1, (nullSpace m n a).2 t k * c t := by
  have hk := ((C25_null_space m n a).2 fun k => x k).2 (by
    funext i
    have := h i i.2
    rw [Finset.sum_range] at this
    exact this)
  unfold rowSpace at hk
  obtain ⟨c, hc⟩ := (Submodule.mem_span_range_iff_exists_fun _).1 hk
  refine ⟨fun t => if h : t < (nullSpace m n a).1 then c ⟨t, h⟩ else 0, fun k hkn => ?_⟩
  have := congrFun hc ⟨k, hkn⟩
  rw [Finset.sum_apply] at this
  rw [Finset.sum_range, ← this]
  refine Finset.sum_congr rfl fun t _ => ?_
  simp [mul_comm]

theorem nullSpace_mem {m n : ℕ} {a : GF2} {i t : ℕ} (hi : i < m) (ht : t < (nullSpace m n a).1) :
    ∑ k ∈ Finset.range n, a i k * (nullSpace m n a).2 t k = 0 := by
  have := ((C25_null_space m n a).2 (fun k => (nullSpace m n a).2 t k)).1 (Submodule.subset_span ⟨⟨t, ht⟩, rfl⟩)
  have := congrFun this ⟨i, hi⟩
  rw [Finset.sum_range]
  exact this

/-- An order of the loops of `mat_mul`. -/
def MulOrd.Valid (mmo : MulOrd) : Prop := ∀ s m l, (mmo s m l).Perm ((List.range m).product (List.range l))

theorem matMul_spec {mmo : MulOrd} (hmmo : mmo.Valid) (s m l : ℕ) (x y : GF2) :
    ∃ c, matMul (mmo s m l) l l x y = some c ∧ ∀ i, i < m → ∀ j, c i j = ∑ k ∈ Finset.range l, x i k * y k j := by
  refine ⟨matMulLoop (mmo s m l) x y, by simp [matMul], fun i hi j => ?_⟩
  obtain ⟨c, h1, h2⟩ := (C25_mat_mul m l l (j + 1) x y (mmo s m l) (hmmo s m l)).2 rfl
  simp only [matMul, ne_eq, not_true_eq_false, if_false, Option.some.injEq] at h1
  subst h1
  have := congrFun (congrFun h2 ⟨i, hi⟩) ⟨j, Nat.lt_succ_self j⟩
  rw [Matrix.mul_apply] at this
  rw [Finset.sum_range]
  exact this

namespace Aog
variable {a : Aog} {fd od : GF2}

theorem optim_eq (hv : a.og.Valid) (rowIdxs : List ℕ) (hr : ∃ q : ℕ → Bool, rowIdxs = (List.range a.nonOutputs.length).filter q) :
    a.nonOutputs.filter (fun v => decide (a.nonOutputs.idxOf v ∈ rowIdxs)) = rowIdxs.map fun i => a.nonOutputs.getD i 0 := by
  have hno : a.nonOutputs = (List.range a.nonOutputs.length).map fun i => a.nonOutputs.getD i 0 := by
    refine List.ext_getElem (by simp) fun i h1 h2 => ?_
    rw [List.getElem_map, List.getElem_range, getD_of_lt h1]
  obtain ⟨q, hq⟩ := hr
  conv_lhs => rw [hno]
  rw [List.filter_map, hq]
  congr 1
  refine List.filter_congr fun i hi => ?_
  have hi' := List.mem_range.1 hi
  simp only [Function.comp, ← hno]
  rw [getD_of_lt hi', List.Nodup.idxOf_getElem a.nonOutputs_nodup]
  simp [hi']

/-- The general case finds a right inverse of `M` for which the ordering has no cycle, if there is one. -/
theorem generalCase_spec (hv : a.og.Valid) {ord : SetOrd} (hord : ord.Valid) {mmo : MulOrd} (hmmo : mmo.Valid)
    (hlt : a.og.inputs.length ≤ a.og.outputs.length) :
    (∃ C, a.generalCase ord mmo fd od = .ok (some C) ∧ a.IsRinv fd C ∧ ¬ HasCycle (a.ordEdge od C)) ∨
    (a.generalCase ord mmo fd od = .ok none ∧ ∀ C, a.IsRinv fd C → HasCycle (a.ordEdge od C)) := by
  unfold generalCase
  simp only []
  set nNo := a.nonOutputs.length with hnNo
  set nNi := a.nonInputs.length with hnNi
  rcases C24_right_inverse nNo nNi fd with ⟨c0, h1, h2⟩ | ⟨h1, h2⟩
  swap
  · rw [h1]
    exact Or.inr ⟨rfl, fun C hC => absurd ⟨_, isRinv_iff.1 hC⟩ h2⟩
  rw [h1]
  simp only []
  have hc0 : a.IsRinv fd c0 := isRinv_iff.2 h2
  obtain ⟨hle, hnull⟩ := nullity_eq h2
  have hd : nNi - nNo = a.og.outputs.length - a.og.inputs.length := by
    obtain ⟨-, p2, p3, p4, p5, -⟩ := OpenGraph.postInit_ok hv.post
    have e1 : nNi = a.og.nodes.card - a.og.inputs.length := by
      rw [hnNi, nonInputs, Finset.length_sort, Finset.card_sdiff_of_subset p2, List.toFinset_card_of_nodup p4]
    have e2 : nNo = a.og.nodes.card - a.og.outputs.length := by
      rw [hnNo, nonOutputs, Finset.length_sort, Finset.card_sdiff_of_subset p3, List.toFinset_card_of_nodup p5]
    have e3 := Finset.card_le_card p3
    rw [List.toFinset_card_of_nodup p5] at e3
    omega
  rw [hd] at hnull
  set d := a.og.outputs.length - a.og.inputs.length with hddef
  set nul := fd.nullSpace nNo nNi with hnul
  obtain ⟨nullity, ker⟩ := nul
  simp only at hnull
  subst hnull
  simp only []
  have hkmem : ∀ i t, i < nNo → t < d → ∑ k ∈ Finset.range nNi, fd i k * ker t k = 0 := by
    intro i t hi ht
    have := nullSpace_mem (a := fd) (n := nNi) hi (t := t) (by rw [← hnul]; exact ht)
    rw [← hnul] at this
    exact this
  have hkcomb : ∀ x : ℕ → ZMod 2, (∀ i, i < nNo → ∑ k ∈ Finset.range nNi, fd i k * x k = 0) →
      ∃ c : ℕ → ZMod 2, ∀ k, k < nNi → x k = ∑ t ∈ Finset.range d, ker t k * c t := by
    intro x hx
    have := nullSpace_comb hx
    rw [← hnul] at this
    exact this
  clear_value nNo nNi d
  set cPrime := hstack nNo c0 fun i j => ker j i with hcp
  set rowIdxs := (List.range nNo).filter fun i => od.rowAny nNi i with hrow
  -- the matrix of a choice of `P`
  have hmulC : ∀ P : GF2, ∃ c, matMul (mmo 1 nNi (nNo + d)) (nNo + d) (nNo + d) cPrime
      (fun i j => if i < nNo then eye i j else P (i - nNo) j) = some c ∧
      ∀ k, k < nNi → ∀ j, j < nNo → c k j = c0 k j + ∑ t ∈ Finset.range d, ker t k * P t j := by
    intro P
    obtain ⟨c, e1, e2⟩ := matMul_spec hmmo 1 nNi (nNo + d) cPrime (fun i j => if i < nNo then eye i j else P (i - nNo) j)
    refine ⟨c, e1, fun k hk j hj => ?_⟩
    rw [e2 k hk j, Finset.sum_range_add]
    congr 1
    · rw [Finset.sum_eq_single j]
      · simp [hcp, hstack, hj, eye]
      · intro t ht hne
        simp [Finset.mem_range.1 ht, eye, hne]
      · intro hn; exact absurd (Finset.mem_range.2 hj) hn
    · refine Finset.sum_congr rfl fun t _ => ?_
      simp [hcp, hstack]
  have hidx : ∀ v ∈ a.nonOutputs, a.nonOutputs.idxOf v < nNo := fun v h => by
    rw [hnNo]; exact List.idxOf_lt_length_of_mem h
  -- products with rows
  have hrowmul : ∀ (m : GF2) (P c : GF2) (i j : ℕ), (∀ k, k < nNi → c k j = c0 k j + ∑ t ∈ Finset.range d, ker t k * P t j) →
      ∑ k ∈ Finset.range nNi, m i k * c k j = ∑ k ∈ Finset.range nNi, m i k * c0 k j +
        ∑ t ∈ Finset.range d, (∑ k ∈ Finset.range nNi, m i k * ker t k) * P t j := by
    intro m P c i j hc
    have e : ∀ k ∈ Finset.range nNi, m i k * c k j = m i k * c0 k j + ∑ t ∈ Finset.range d, m i k * ker t k * P t j := by
      intro k hk
      rw [hc k (Finset.mem_range.1 hk), mul_add, Finset.mul_sum]
      congr 1
      exact Finset.sum_congr rfl fun t _ => by ring
    rw [Finset.sum_congr rfl e, Finset.sum_add_distrib]
    congr 1
    rw [Finset.sum_comm]
    exact Finset.sum_congr rfl fun t _ => by rw [Finset.sum_mul]
  have hrinv : ∀ P c : GF2, (∀ k, k < nNi → ∀ j, j < nNo → c k j = c0 k j + ∑ t ∈ Finset.range d, ker t k * P t j) → a.IsRinv fd c := by
    intro P c hc u hu w hw
    rw [← hnNi, hrowmul fd P c _ _ (fun k hk => hc k hk _ (hidx u hu)), Finset.sum_eq_zero (s := Finset.range d), add_zero]
    · have := hc0 u hu w hw
      rw [← hnNi] at this
      exact this
    · intro t ht
      rw [hkmem _ t (hidx w hw) (Finset.mem_range.1 ht), zero_mul]
  have hparam : ∀ C : GF2, a.IsRinv fd C → ∃ P : GF2, ∀ k, k < nNi → ∀ j, j < nNo →
      C k j = c0 k j + ∑ t ∈ Finset.range d, ker t k * P t j := by
    intro C hC
    have hcol : ∀ j, j < nNo → ∃ c : ℕ → ZMod 2, ∀ k, k < nNi → C k j + c0 k j = ∑ t ∈ Finset.range d, ker t k * c t := by
      intro j hj
      refine hkcomb (fun k => C k j + c0 k j) fun i hi => ?_
      have hjl : j < a.nonOutputs.length := hnNo ▸ hj
      have hil : i < a.nonOutputs.length := hnNo ▸ hi
      have e1 := hC _ (a.nonOutputs.getElem_mem hjl) _ (a.nonOutputs.getElem_mem hil)
      have e2 := hc0 _ (a.nonOutputs.getElem_mem hjl) _ (a.nonOutputs.getElem_mem hil)
      rw [List.Nodup.idxOf_getElem a.nonOutputs_nodup, List.Nodup.idxOf_getElem a.nonOutputs_nodup, ← hnNi] at e1 e2
      simp only [mul_add, Finset.sum_add_distrib]
      rw [e1, e2]
      exact zmod2_add_self _
    choose! c hc using hcol
    refine ⟨fun t j => c j t, fun k hk j hj => ?_⟩
    rw [← hc j hj k hk]
    have := zmod2_add_self (c0 k j)
    linear_combination (-1) * this
  -- rows outside of the optimised ones are zero
  have hzero : ∀ v ∈ a.nonOutputs, a.nonOutputs.idxOf v ∉ rowIdxs → ∀ k, k < nNi → od (a.nonOutputs.idxOf v) k = 0 := by
    intro v hv' hnot k hk
    refine zmod2_ne_one.1 fun h => hnot ?_
    rw [hrow, List.mem_filter, List.mem_range]
    exact ⟨hidx v hv', (rowAny_iff od nNi _).2 ⟨k, hk, h⟩⟩
  by_cases hempty : rowIdxs = []
  · simp only [hempty, ne_eq, not_true_eq_false, if_false, bind, Except.bind, pure, Except.pure]
    obtain ⟨c, e1, e2⟩ := hmulC fun _ _ => 0
    rw [e1]
    refine Or.inl ⟨c, rfl, hrinv _ c e2, ?_⟩
    rintro ⟨u, hu⟩
    obtain ⟨y, ⟨-, hy, h⟩, -⟩ := Relation.TransGen.head'_iff.1 hu
    rw [Finset.sum_eq_zero] at h
    · exact absurd h (by decide)
    · intro k hk
      rw [hzero y hy (by rw [hempty]; simp) k (Finset.mem_range.1 (by rw [hnNi]; exact hk)), zero_mul]
  · obtain ⟨nb, e1, e2⟩ := matMul_spec hmmo 0 rowIdxs.length nNi (fun i j => od (rowIdxs.getD i 0) j) cPrime
    simp only [ne_eq, hempty, not_false_eq_true, if_true, e1, bind, Except.bind, pure, Except.pure]
    set opt := a.nonOutputs.filter (fun v => decide (a.nonOutputs.idxOf v ∈ rowIdxs)) with hopt
    have hoptmap : opt = rowIdxs.map fun i => a.nonOutputs.getD i 0 := optim_eq hv rowIdxs ⟨_, by rw [hrow, hnNo]⟩
    have hmemopt : ∀ v, v ∈ opt ↔ v ∈ a.nonOutputs ∧ a.nonOutputs.idxOf v ∈ rowIdxs := by
      intro v; rw [hopt, List.mem_filter, decide_eq_true_eq]
    have hrowidx : ∀ v ∈ opt, opt.idxOf v < rowIdxs.length ∧ rowIdxs.getD (opt.idxOf v) 0 = a.nonOutputs.idxOf v := by
      intro v hv'
      have h1 := List.idxOf_lt_length_of_mem hv'
      have h2 : opt.length = rowIdxs.length := by rw [hoptmap, List.length_map]
      have h3 : opt.idxOf v < rowIdxs.length := h2 ▸ h1
      refine ⟨h3, ?_⟩
      have h4 : opt[opt.idxOf v] = v := List.getElem_idxOf h1
      have h5 : opt[opt.idxOf v] = a.nonOutputs.getD (rowIdxs[opt.idxOf v]) 0 := by
        have : opt[opt.idxOf v]? = (rowIdxs.map fun i => a.nonOutputs.getD i 0)[opt.idxOf v]? := by
          rw [← hoptmap]
        rw [List.getElem?_eq_getElem h1, List.getElem?_map, List.getElem?_eq_getElem h3] at this
        simpa using this
      rw [getD_of_lt h3]
      have h6 : rowIdxs[opt.idxOf v] < a.nonOutputs.length := by
        have := List.getElem_mem h3
        have h7 : rowIdxs[opt.idxOf v] ∈ (List.range nNo).filter fun i => od.rowAny nNi i := this
        rw [List.mem_filter, List.mem_range, hnNo] at h7
        exact h7.1
      rw [getD_of_lt h6] at h5
      rw [h4] at h5
      conv_rhs => rw [h5]
      rw [List.Nodup.idxOf_getElem a.nonOutputs_nodup]
    have hspec := computePMatrix_spec a.nonOutputs_nodup (List.Nodup.filter _ a.nonOutputs_nodup)
      (fun v hv' => ((hmemopt v).1 hv').1) hord (opt := opt) d nb
    simp only [] at hspec
    have hE : ∀ (P c : GF2), (∀ k, k < nNi → ∀ j, j < nNo → c k j = c0 k j + ∑ t ∈ Finset.range d, ker t k * P t j) →
        a.ordEdge od c = fun u v => u ∈ a.nonOutputs ∧ v ∈ opt ∧
          ∑ t ∈ Finset.range d, nb (opt.idxOf v) (a.nonOutputs.length + t) * P t (a.nonOutputs.idxOf u) +
            nb (opt.idxOf v) (a.nonOutputs.idxOf u) = 1 := by
      intro P c hc
      funext u v
      refine propext (and_congr_right fun hu => ?_)
      by_cases hvopt : v ∈ opt
      · obtain ⟨hlt', hidxv⟩ := hrowidx v hvopt
        have hvno := ((hmemopt v).1 hvopt).1
        simp only [hvno, hvopt, true_and]
        have hnb : ∀ j, nb (opt.idxOf v) j = ∑ k ∈ Finset.range nNi, od (a.nonOutputs.idxOf v) k * cPrime k j := by
          intro j
          rw [e2 _ hlt' j, hidxv]
        have hnb1 : nb (opt.idxOf v) (a.nonOutputs.idxOf u) = ∑ k ∈ Finset.range nNi, od (a.nonOutputs.idxOf v) k * c0 k (a.nonOutputs.idxOf u) := by
          rw [hnb]
          refine Finset.sum_congr rfl fun k _ => ?_
          simp [hcp, hstack, hidx u hu]
        have hnb2 : ∀ t, nb (opt.idxOf v) (a.nonOutputs.length + t) = ∑ k ∈ Finset.range nNi, od (a.nonOutputs.idxOf v) k * ker t k := by
          intro t
          rw [hnb]
          refine Finset.sum_congr rfl fun k _ => ?_
          simp [hcp, hstack, hnNo]
        rw [← hnNi, hrowmul od P c _ _ (fun k hk => hc k hk _ (hidx u hu)), hnb1, add_comm]
        simp only [hnb2]
      · refine iff_of_false ?_ (fun h => hvopt h.1)
        rintro ⟨hvno, h⟩
        rw [Finset.sum_eq_zero] at h
        · exact absurd h (by decide)
        · intro k hk
          rw [hzero v hvno (fun hh => hvopt ((hmemopt v).2 ⟨hvno, hh⟩)) k (Finset.mem_range.1 (by rw [hnNi]; exact hk)), zero_mul]
    rcases hspec with ⟨P, g1, g2⟩ | ⟨g1, g2⟩
    · rw [g1]
      simp only []
      obtain ⟨c, f1, f2⟩ := hmulC P
      rw [f1]
      refine Or.inl ⟨c, rfl, hrinv P c f2, ?_⟩
      rw [hE P c f2]
      exact g2
    · rw [g1]
      refine Or.inr ⟨rfl, fun C hC => ?_⟩
      obtain ⟨P, hP⟩ := hparam C hC
      rw [hE P C hP]
      exact g2 P

theorem ordEdge_congr {C C' : GF2} (h : ∀ k, k < a.nonInputs.length → ∀ j, j < a.nonOutputs.length → C k j = C' k j) :
    a.ordEdge od C = a.ordEdge od C' := by
  funext u v
  refine propext (and_congr_right fun hu => and_congr_right fun _ => ?_)
  rw [Finset.sum_congr rfl fun k hk => by rw [h k (Finset.mem_range.1 hk) _ (List.idxOf_lt_length_of_mem hu)]]

/-- `compute_correction_matrix`: the matrix that is returned is a right inverse of `M`, and no other right inverse has an
acyclic ordering if this one has not. -/
theorem computeCorrectionMatrix_spec (hv : a.og.Valid) {ord : SetOrd} (hord : ord.Valid) {mmo : MulOrd} (hmmo : mmo.Valid)
    (hmat : a.ogMatrices = .ok (fd, od)) :
    (∃ C, a.computeCorrectionMatrix ord mmo = .ok (some C) ∧ a.IsRinv fd C ∧
      ∀ C', a.IsRinv fd C' → ¬ HasCycle (a.ordEdge od C') → ¬ HasCycle (a.ordEdge od C)) ∨
    (a.computeCorrectionMatrix ord mmo = .ok none ∧ ∀ C, a.IsRinv fd C → HasCycle (a.ordEdge od C)) := by
  obtain ⟨-, p2, p3, p4, p5, -⟩ := OpenGraph.postInit_ok hv.post
  have e1 : a.nonInputs.length = a.og.nodes.card - a.og.inputs.length := by
    rw [nonInputs, Finset.length_sort, Finset.card_sdiff_of_subset p2, List.toFinset_card_of_nodup p4]
  have e2 : a.nonOutputs.length = a.og.nodes.card - a.og.outputs.length := by
    rw [nonOutputs, Finset.length_sort, Finset.card_sdiff_of_subset p3, List.toFinset_card_of_nodup p5]
  have e3 := Finset.card_le_card p3
  have e4 := Finset.card_le_card p2
  rw [List.toFinset_card_of_nodup p5] at e3
  rw [List.toFinset_card_of_nodup p4] at e4
  unfold computeCorrectionMatrix
  by_cases hgt : a.og.inputs.length > a.og.outputs.length
  · rw [if_pos hgt]
    refine Or.inr ⟨rfl, fun C hC => ?_⟩
    have := (nullity_eq (isRinv_iff.1 hC)).1
    omega
  · rw [if_neg hgt]
    simp only [hmat, bind, Except.bind, pure, Except.pure]
    by_cases heq : a.og.inputs.length = a.og.outputs.length
    · rw [if_pos heq]
      rcases C24_right_inverse a.nonOutputs.length a.nonInputs.length fd with ⟨c0, h1, h2⟩ | ⟨h1, h2⟩
      · rw [h1]
        refine Or.inl ⟨c0, rfl, isRinv_iff.2 h2, fun C' hC' hac => ?_⟩
        have hsq : a.nonInputs.length = a.nonOutputs.length := by omega
        have hcomm : toMat a.nonInputs.length a.nonOutputs.length c0 * toMat a.nonOutputs.length a.nonInputs.length fd = 1 := by
          revert h2
          generalize a.nonInputs.length = n at hsq
          subst hsq
          exact fun h2 => mul_eq_one_comm.1 h2
        have hC'' := isRinv_iff.1 hC'
        have heq' : toMat a.nonInputs.length a.nonOutputs.length C' = toMat a.nonInputs.length a.nonOutputs.length c0 := by
          have := congrArg (fun X => toMat a.nonInputs.length a.nonOutputs.length c0 * X) hC''
          beta_reduce at this
          rw [← Matrix.mul_assoc, hcomm, Matrix.one_mul, Matrix.mul_one] at this
          exact this
        rw [ordEdge_congr (C' := C')]
        · exact hac
        · intro k hk j hj
          exact (congrFun (congrFun heq' ⟨k, hk⟩) ⟨j, hj⟩).symm
      · rw [h1]
        exact Or.inr ⟨rfl, fun C hC => absurd ⟨_, isRinv_iff.1 hC⟩ h2⟩
    · rw [if_neg heq]
      rcases generalCase_spec (fd := fd) (od := od) hv hord hmmo (by omega) with ⟨C, h1, h2, h3⟩ | h
      · exact Or.inl ⟨C, h1, h2, fun _ _ _ => h3⟩
      · exact Or.inr h

end Aog

/-- `_try_ordering_matrix_to_topological_generations`. -/
theorem orderingMatrixGenerations_spec (n : ℕ) {ord : Finset ℕ → List ℕ} (hord : ∀ s, (ord s).Nodup ∧ ∀ k, k ∈ ord s ↔ k ∈ s) (m : GF2) :
    let E (u v : ℕ) : Prop := u < n ∧ v < n ∧ m v u = 1
    (∃ gens, orderingMatrixGenerations n ord m = .ok (some gens) ∧ IsGenerations (Finset.range n) E gens ∧ ¬ HasCycle E) ∨
    (orderingMatrixGenerations n ord m = .ok none ∧ HasCycle E) := by
  intro E
  unfold orderingMatrixGenerations
  simp only []
  set dag : TopoGen.Dag := fun node => if node < n then some ((Finset.range n).filter fun i => m i node = 1) else none with hdag
  have hE : dagEdge dag (Finset.range n) = E := by
    funext u v
    refine propext ?_
    simp only [dagEdge, hdag, Finset.mem_range]
    constructor
    · rintro ⟨h1, ch, h2, h3⟩
      rw [if_pos h1] at h2
      cases h2
      rw [Finset.mem_filter, Finset.mem_range] at h3
      exact ⟨h1, h3⟩
    · rintro ⟨h1, h2, h3⟩
      exact ⟨h1, _, if_pos h1, by rw [Finset.mem_filter, Finset.mem_range]; exact ⟨h2, h3⟩⟩
  have hpar : ∀ i, i < n → (dagParents dag (Finset.range n) i).card = ((List.range n).filter fun j => decide (m i j = 1)).length := by
    intro i hi
    rw [← List.toFinset_card_of_nodup (List.nodup_range.filter _)]
    congr 1
    ext j
    rw [List.mem_toFinset, List.mem_filter, List.mem_range, decide_eq_true_eq]
    have : j ∈ dagParents dag (Finset.range n) i ↔ j < n ∧ E j i := by
      rw [← hE]; unfold dagParents; simp
    rw [this]
    exact ⟨fun h => ⟨h.1, h.2.2.2⟩, fun h => ⟨h.1, h.1, hi, h.2⟩⟩
  have hin : TopoInput dag (Finset.range n)
      (((List.range n).filter fun i => decide (((List.range n).filter fun j => decide (m i j = 1)).length ≠ 0)).map
        fun i => (i, (((List.range n).filter fun j => decide (m i j = 1)).length : ℤ)))
      ((List.range n).filter fun i => decide (((List.range n).filter fun j => decide (m i j = 1)).length = 0)).toFinset := by
    have hkeys : PyDict.keys (((List.range n).filter fun i => decide (((List.range n).filter fun j => decide (m i j = 1)).length ≠ 0)).map
        fun i => (i, (((List.range n).filter fun j => decide (m i j = 1)).length : ℤ))) =
        (List.range n).filter fun i => decide (((List.range n).filter fun j => decide (m i j = 1)).length ≠ 0) := by
      unfold PyDict.keys; rw [List.map_map]; exact List.map_id _
    refine ⟨?_, ?_, ?_, ?_⟩
    · intro u hu
      exact ⟨_, if_pos (Finset.mem_range.1 hu), Finset.filter_subset _ _⟩
    · rw [hkeys]; exact List.nodup_range.filter _
    · intro v c
      constructor
      · intro h
        obtain ⟨i, h1, h2⟩ := List.mem_map.1 (PyDict.mem_of_get? h)
        rw [List.mem_filter, List.mem_range, decide_eq_true_eq] at h1
        simp only [Prod.mk.injEq] at h2
        obtain ⟨rfl, rfl⟩ := h2
        rw [← hpar i h1.1] at h1 ⊢
        exact ⟨Finset.mem_range.2 h1.1, fun e => h1.2 (by rw [e]; rfl), rfl⟩
      · rintro ⟨h1, h2, rfl⟩
        have h1 := Finset.mem_range.1 h1
        refine PyDict.get?_of_mem (by rw [hkeys]; exact List.nodup_range.filter _) (List.mem_map.2 ⟨v, ?_, ?_⟩)
        · rw [List.mem_filter, List.mem_range, decide_eq_true_eq, ← hpar v h1]
          exact ⟨h1, fun e => h2 (Finset.card_eq_zero.1 e)⟩
        · rw [hpar v h1]
    · intro v
      rw [List.mem_toFinset, List.mem_filter, List.mem_range, decide_eq_true_eq, Finset.mem_range]
      refine and_congr_right fun h1 => ?_
      rw [← hpar v h1, Finset.card_eq_zero]
  obtain ⟨res, h1, h2, h3⟩ := C26_topological_generations dag _ _ _ hin ord hord
  rw [hE] at h2 h3
  rw [h1]
  rcases res with - | gens
  · exact Or.inr ⟨rfl, h3.1 rfl⟩
  · exact Or.inl ⟨gens, rfl, h2 gens rfl, fun hc => by cases h3.2 hc⟩

namespace Aog
variable {a : Aog} {fd od : GF2}

theorem partialOrderLayers_spec (hv : a.og.Valid) {ord : SetOrd} (hord : ord.Valid) {mmo : MulOrd} (hmmo : mmo.Valid)
    (hmat : a.ogMatrices = .ok (fd, od)) (C : GF2) :
    (∃ layers, a.partialOrderLayers ord mmo C = .ok (some layers) ∧ LayersOk a.og layers ∧
      (∀ u v, a.ordEdge od C u v → Before layers u v) ∧ ¬ HasCycle (a.ordEdge od C)) ∨
    (a.partialOrderLayers ord mmo C = .ok none ∧ HasCycle (a.ordEdge od C)) := by
  obtain ⟨nc, e1, e2⟩ := matMul_spec hmmo 2 a.nonOutputs.length a.nonInputs.length od C
  unfold partialOrderLayers
  simp only [hmat, e1, bind, Except.bind, pure, Except.pure]
  have hidx : ∀ v ∈ a.nonOutputs, a.nonOutputs.idxOf v < a.nonOutputs.length := fun v h => List.idxOf_lt_length_of_mem h
  have hE : ∀ u v, u ∈ a.nonOutputs → v ∈ a.nonOutputs →
      (a.ordEdge od C u v ↔ a.nonOutputs.idxOf u < a.nonOutputs.length ∧ a.nonOutputs.idxOf v < a.nonOutputs.length ∧
        nc (a.nonOutputs.idxOf v) (a.nonOutputs.idxOf u) = 1) := by
    intro u v hu hv'
    unfold ordEdge
    rw [e2 _ (hidx v hv')]
    exact ⟨fun h => ⟨hidx u hu, hidx v hv', h.2.2⟩, fun h => ⟨hu, hv', h.2.2⟩⟩
  have hget : ∀ i, i < a.nonOutputs.length → a.nonOutputs.getD i 0 ∈ a.nonOutputs ∧ a.nonOutputs.idxOf (a.nonOutputs.getD i 0) = i := by
    intro i hi
    rw [getD_of_lt hi]
    exact ⟨List.getElem_mem hi, List.Nodup.idxOf_getElem a.nonOutputs_nodup i hi⟩
  have hget' : ∀ v ∈ a.nonOutputs, a.nonOutputs.getD (a.nonOutputs.idxOf v) 0 = v := by
    intro v h
    rw [getD_of_lt (hidx v h), List.getElem_idxOf]
  have hcyc : HasCycle (a.ordEdge od C) ↔ HasCycle fun u v => u < a.nonOutputs.length ∧ v < a.nonOutputs.length ∧ nc v u = 1 := by
    constructor
    · rintro ⟨u, hu⟩
      exact ⟨_, Relation.TransGen.lift a.nonOutputs.idxOf (fun x y h => (hE x y h.1 h.2.1).1 h) u u hu⟩
    · rintro ⟨u, hu⟩
      refine ⟨_, Relation.TransGen.lift (p := a.ordEdge od C) (fun i => a.nonOutputs.getD i 0) (fun x y h => ?_) u u hu⟩
      obtain ⟨g1, g2⟩ := hget x h.1
      obtain ⟨g3, g4⟩ := hget y h.2.1
      refine (hE _ _ g1 g3).2 ?_
      rw [g2, g4]
      exact h
  rcases orderingMatrixGenerations_spec a.nonOutputs.length (hord 14 0) nc with ⟨gens, h1, h2, h3⟩ | ⟨h1, h2⟩
  swap
  · rw [h1]
    exact Or.inr ⟨rfl, hcyc.2 h2⟩
  rw [h1]
  simp only []
  refine Or.inl ⟨_, rfl, ?_, ?_, fun hc => h3 (hcyc.1 hc)⟩
  · obtain ⟨-, -, p3, -, -, -⟩ := OpenGraph.postInit_ok hv.post
    have hsub : ∀ g ∈ gens, ∀ i ∈ g, i < a.nonOutputs.length := fun g hg i hi =>
      Finset.mem_range.1 ((h2.cover i).2 ⟨g, hg, hi⟩)
    have hout : ∀ L, L ∈ (if a.og.outputs ≠ [] then [a.og.outputs.toFinset] else []) ↔ a.og.outputs ≠ [] ∧ L = a.og.outputs.toFinset := by
      intro L; split <;> simp_all
    refine ⟨?_, ?_, ?_, ?_⟩
    · intro ho
      rw [if_pos ho]; rfl
    · intro L hL
      rw [List.mem_append] at hL
      rcases hL with hL | hL
      · obtain ⟨ho, rfl⟩ := (hout L).1 hL
        rcases ho' : a.og.outputs with - | ⟨o, os⟩
        · exact absurd ho' ho
        · exact ⟨o, by simp⟩
      · obtain ⟨g, hg, rfl⟩ := List.mem_map.1 hL
        exact (h2.nonempty g (List.mem_reverse.1 hg)).image _
    · rw [List.pairwise_append]
      refine ⟨by split <;> simp, ?_, ?_⟩
      · rw [List.pairwise_map, List.pairwise_reverse]
        refine List.Pairwise.imp_of_mem (fun {g g'} hg hg' hd => ?_) h2.disjoint
        rw [Finset.disjoint_left]
        intro v hv1 hv2
        obtain ⟨i, hi, rfl⟩ := Finset.mem_image.1 hv1
        obtain ⟨i', hi', he⟩ := Finset.mem_image.1 hv2
        have := congrArg a.nonOutputs.idxOf he
        rw [(hget i (hsub g' hg' i hi)).2, (hget i' (hsub g hg i' hi')).2] at this
        subst this
        exact Finset.disjoint_left.1 hd hi' hi
      · intro L hL L' hL'
        obtain ⟨-, rfl⟩ := (hout L).1 hL
        obtain ⟨g, hg, rfl⟩ := List.mem_map.1 hL'
        rw [Finset.disjoint_left]
        intro v hv1 hv2
        obtain ⟨i, hi, rfl⟩ := Finset.mem_image.1 hv2
        have := (hget i (hsub g (List.mem_reverse.1 hg) i hi)).1
        exact ((mem_nonOutputs a).1 this).2 (List.mem_toFinset.1 hv1)
    · intro v
      constructor
      · intro hvn
        by_cases hvo : v ∈ a.og.outputs
        · refine ⟨_, List.mem_append_left _ ((hout _).2 ⟨List.ne_nil_of_mem hvo, rfl⟩), List.mem_toFinset.2 hvo⟩
        · have hm := (mem_nonOutputs a).2 ⟨hvn, hvo⟩
          obtain ⟨g, hg, hgi⟩ := (h2.cover _).1 (Finset.mem_range.2 (hidx v hm))
          exact ⟨_, List.mem_append_right _ (List.mem_map.2 ⟨g, List.mem_reverse.2 hg, rfl⟩),
            Finset.mem_image.2 ⟨_, hgi, hget' v hm⟩⟩
      · rintro ⟨L, hL, hvL⟩
        rcases List.mem_append.1 hL with hL | hL
        · obtain ⟨-, rfl⟩ := (hout L).1 hL
          exact p3 hvL
        · obtain ⟨g, hg, rfl⟩ := List.mem_map.1 hL
          obtain ⟨i, hi, rfl⟩ := Finset.mem_image.1 hvL
          exact ((mem_nonOutputs a).1 (hget i (hsub g (List.mem_reverse.1 hg) i hi)).1).1
  · intro u v he
    obtain ⟨hu, hv', -⟩ := id he
    have he' := (hE u v hu hv').1 he
    obtain ⟨gu, hgu, hui⟩ := (h2.cover _).1 (Finset.mem_range.2 (hidx u hu))
    obtain ⟨gv, hgv, hvi⟩ := (h2.cover _).1 (Finset.mem_range.2 (hidx v hv'))
    obtain ⟨i, hi⟩ := List.mem_iff_getElem?.1 hgu
    obtain ⟨j, hj⟩ := List.mem_iff_getElem?.1 hgv
    have hij := h2.edges _ _ (Finset.mem_range.2 (hidx u hu)) he' i j gu gv hi hj hui hvi
    have hjl := (List.getElem?_eq_some_iff.1 hj).1
    have hpos : ∀ (i : ℕ) (g : Finset ℕ), gens[i]? = some g → ((if a.og.outputs ≠ [] then [a.og.outputs.toFinset] else []) ++
        gens.reverse.map fun g => g.image fun i => a.nonOutputs.getD i 0)[(if a.og.outputs ≠ [] then [a.og.outputs.toFinset] else []).length +
          (gens.length - 1 - i)]? = some (g.image fun i => a.nonOutputs.getD i 0) := by
      intro i g hig
      have := (List.getElem?_eq_some_iff.1 hig).1
      rw [List.getElem?_append_right (by omega), Nat.add_sub_cancel_left, List.getElem?_map, List.getElem?_reverse (by omega)]
      rw [show gens.length - 1 - (gens.length - 1 - i) = i by omega, hig]
      rfl
    exact ⟨_, _, _, _, hpos i gu hi, hpos j gv hj, by omega, Finset.mem_image.2 ⟨_, hui, hget' u hu⟩,
      Finset.mem_image.2 ⟨_, hvi, hget' v hv'⟩⟩

theorem get_corr (C : GF2) (u : ℕ) (s : Finset ℕ) : (a.toCorrectionFunction C).get? u = some s ↔
    u ∈ a.nonOutputs ∧ s = a.nonInputs.toFinset.filter fun k => C (a.nonInputs.idxOf k) (a.nonOutputs.idxOf u) = 1 := by
  have hset : ∀ u, (((List.range a.nonInputs.length).filter fun j => decide (C j (a.nonOutputs.idxOf u) = 1)).map
      fun j => a.nonInputs.getD j 0).toFinset = a.nonInputs.toFinset.filter fun k => C (a.nonInputs.idxOf k) (a.nonOutputs.idxOf u) = 1 := by
    intro u
    ext k
    simp only [List.mem_toFinset, List.mem_map, List.mem_filter, List.mem_range, decide_eq_true_eq, Finset.mem_filter]
    constructor
    · rintro ⟨j, ⟨h1, h2⟩, rfl⟩
      rw [getD_of_lt h1, List.Nodup.idxOf_getElem a.nonInputs_nodup]
      exact ⟨List.getElem_mem h1, h2⟩
    · rintro ⟨h1, h2⟩
      have := List.idxOf_lt_length_of_mem h1
      exact ⟨_, ⟨this, h2⟩, by rw [getD_of_lt this, List.getElem_idxOf]⟩
  have hkeys : (a.toCorrectionFunction C).keys = a.nonOutputs := by
    unfold toCorrectionFunction PyDict.keys; rw [List.map_map]; exact List.map_id _
  constructor
  · intro h
    obtain ⟨w, h1, h2⟩ := List.mem_map.1 (PyDict.mem_of_get? h)
    rw [Prod.mk.injEq, hset] at h2
    obtain ⟨rfl, rfl⟩ := h2
    exact ⟨h1, rfl⟩
  · rintro ⟨h1, rfl⟩
    refine PyDict.get?_of_mem (by rw [hkeys]; exact a.nonOutputs_nodup) (List.mem_map.2 ⟨u, h1, ?_⟩)
    rw [hset]

theorem corr_keys (C : GF2) : (a.toCorrectionFunction C).keys.Nodup := by
  have hkeys : (a.toCorrectionFunction C).keys = a.nonOutputs := by
    unfold toCorrectionFunction PyDict.keys; rw [List.map_map]; exact List.map_id _
  rw [hkeys]; exact a.nonOutputs_nodup

/-- A right inverse with an acyclic ordering gives a Pauli flow. -/
theorem isPauliFlow_of (hv : a.og.Valid) (hloop : ∀ v, (v, v) ∉ a.og.edges) (hm : a.IsMats fd od) {C : GF2} (hC : a.IsRinv fd C)
    {layers : List (Finset ℕ)} (hl : LayersOk a.og layers) (hb : ∀ u v, a.ordEdge od C u v → Before layers u v)
    (hac : ¬ HasCycle (a.ordEdge od C)) : IsPauliFlow ⟨a.og, a.toCorrectionFunction C, layers⟩ := by
  have hlab : ∀ {v l}, a.og.HasLabel v l ↔ (v ∈ a.og.nodes ∧ v ∉ a.og.outputs) ∧ labelOf a.og v = l := hasLabel_iff hv
  have hcol : ∀ u s, (a.toCorrectionFunction C).get? u = some s → u ∈ a.nonOutputs ∧ s ⊆ a.og.nin ∧ a.colV C u = indV s := by
    intro u s h
    obtain ⟨h1, rfl⟩ := (get_corr C u s).1 h
    refine ⟨h1, by rw [nin_eq]; exact Finset.filter_subset _ _, ?_⟩
    funext k
    unfold colV indV
    simp only [Finset.mem_filter, List.mem_toFinset]
    by_cases hk : k ∈ a.nonInputs
    · rw [if_pos hk]
      by_cases h : C (a.nonInputs.idxOf k) (a.nonOutputs.idxOf u) = 1
      · rw [if_pos ⟨hk, h⟩, h]
      · rw [if_neg fun h' => h h'.2, zmod2_ne_one.1 h]
    · rw [if_neg hk, if_neg fun h' => hk h'.1]
  -- facts on a correction set
  have key : ∀ u s, (a.toCorrectionFunction C).get? u = some s → ∀ v, v ∈ a.nonOutputs →
      demM a.og a.og.nin v (indV s) = (if v = u then 1 else 0) ∧ (demN a.og a.og.nin v (indV s) = 1 → Before layers u v ∧ v ≠ u) := by
    intro u s h v hvo
    obtain ⟨h1, h2, h3⟩ := hcol u s h
    obtain ⟨g1, g2⟩ := mul_eq hm hloop C (u := u) hvo
    rw [← h3, ← g1, ← g2]
    refine ⟨hC u h1 v hvo, fun h4 => ⟨hb u v ⟨h1, hvo, h4⟩, ?_⟩⟩
    rintro rfl
    exact hac ⟨v, .single ⟨h1, hvo, h4⟩⟩
  have hodd : ∀ u s, (a.toCorrectionFunction C).get? u = some s → ∀ v, (oddV a.og a.og.nin (indV s) v = 1 ↔ a.og.InOdd s v) :=
    fun u s h v => oddV_indV a.og (hcol u s h).2.1 v
  have hnode : ∀ u s, (a.toCorrectionFunction C).get? u = some s → u ∈ a.og.nodes ∧ u ∉ a.og.outputs := fun u s h =>
    (mem_nonOutputs a).1 (hcol u s h).1
  have hself : ∀ u s, (a.toCorrectionFunction C).get? u = some s → demM a.og a.og.nin u (indV s) = 1 ∧ demN a.og a.og.nin u (indV s) = 0 := by
    intro u s h
    obtain ⟨g1, g2⟩ := key u s h u (hcol u s h).1
    rw [if_pos rfl] at g1
    exact ⟨g1, zmod2_ne_one.1 fun e => (g2 e).2 rfl⟩
  refine { domain := ?_, image := ?_, layers := hl, p1 := ?_, p2 := ?_, p3 := ?_, p4 := ?_, p5 := ?_, p6 := ?_, p7 := ?_, p8 := ?_, p9 := ?_ }
  · intro u
    rw [← mem_nonOutputs]
    exact ⟨fun ⟨s, h⟩ => (hcol u s h).1, fun h => ⟨_, (get_corr C u _).2 ⟨h, rfl⟩⟩⟩
  · intro u s v h hvs
    have := (hcol u s h).2.1 hvs
    simpa using this
  · intro u s h v hvs hvu hx hy
    have hvn : v ∈ a.og.nodes := by
      have := (hcol u s h).2.1 hvs
      rw [Finset.mem_sdiff] at this; exact this.1
    by_cases hvo : v ∈ a.og.outputs
    · exact hl.outputs_after (hnode u s h).1 (hnode u s h).2 hvo
    · obtain ⟨g1, g2⟩ := key u s h v ((mem_nonOutputs a).2 ⟨hvn, hvo⟩)
      rw [if_neg hvu] at g1
      have hi := (indV_eq_one (s := s)).2 hvs
      unfold demM at g1
      unfold demN at g2
      rcases hq : labelOf a.og v with q | q <;> cases q <;> rw [hq] at g1 g2 <;> simp only [] at g1 g2
      · exact (g2 hi).1
      · rw [hi] at g1; exact absurd g1 (by decide)
      · rw [hi] at g1; exact absurd g1 (by decide)
      · exact absurd (hlab.2 ⟨⟨hvn, hvo⟩, hq⟩) hx
      · exact absurd (hlab.2 ⟨⟨hvn, hvo⟩, hq⟩) hy
      · rw [hi] at g1; exact absurd g1 (by decide)
  · intro u s h v hvn hvs hvu hy hz
    by_cases hvo : v ∈ a.og.outputs
    · exact hl.outputs_after (hnode u s h).1 (hnode u s h).2 hvo
    · obtain ⟨g1, g2⟩ := key u s h v ((mem_nonOutputs a).2 ⟨hvn, hvo⟩)
      rw [if_neg hvu] at g1
      have hi := (hodd u s h v).2 hvs
      unfold demM at g1
      unfold demN at g2
      rcases hq : labelOf a.og v with q | q <;> cases q <;> rw [hq] at g1 g2 <;> simp only [] at g1 g2
      · rw [hi] at g1; exact absurd g1 (by decide)
      · exact (g2 hi).1
      · exact (g2 (by rw [hi, g1, add_zero])).1
      · rw [hi] at g1; exact absurd g1 (by decide)
      · exact absurd (hlab.2 ⟨⟨hvn, hvo⟩, hq⟩) hy
      · exact absurd (hlab.2 ⟨⟨hvn, hvo⟩, hq⟩) hz
  · intro u s h v hvu hy _
    obtain ⟨hn, hq⟩ := hlab.1 hy
    obtain ⟨g1, -⟩ := key u s h v ((mem_nonOutputs a).2 hn)
    rw [if_neg hvu] at g1
    unfold demM at g1
    rw [hq] at g1
    simp only [] at g1
    rw [← hodd u s h v, ← indV_eq_one (s := s)]
    rcases zmod2_cases (indV s v) with e | e
    · rw [e, add_zero] at g1; rw [e, g1]
    · rw [e] at g1 ⊢
      simp only [true_iff]
      by_contra hc
      rw [zmod2_ne_one.1 hc, zero_add] at g1
      exact absurd g1 (by decide)
  · intro u s h hlb
    obtain ⟨g1, g2⟩ := hself u s h
    unfold demM at g1; unfold demN at g2
    rw [(hlab.1 hlb).2] at g1 g2
    simp only [] at g1 g2
    exact ⟨fun hus => absurd ((indV_eq_one (s := s)).2 hus) (by rw [g2]; decide), (hodd u s h u).1 g1⟩
  · intro u s h hlb
    obtain ⟨g1, g2⟩ := hself u s h
    unfold demM at g1; unfold demN at g2
    rw [(hlab.1 hlb).2] at g1 g2
    simp only [] at g1 g2
    refine ⟨indV_eq_one.1 g1, (hodd u s h u).1 ?_⟩
    rw [g1] at g2
    by_contra hc
    rw [zmod2_ne_one.1 hc, zero_add] at g2
    exact absurd g2 (by decide)
  · intro u s h hlb
    obtain ⟨g1, g2⟩ := hself u s h
    unfold demM at g1; unfold demN at g2
    rw [(hlab.1 hlb).2] at g1 g2
    simp only [] at g1 g2
    refine ⟨indV_eq_one.1 g1, fun hc => ?_⟩
    rw [(hodd u s h u).2 hc] at g2
    exact absurd g2 (by decide)
  · intro u s h hlb
    obtain ⟨g1, -⟩ := hself u s h
    unfold demM at g1
    rw [(hlab.1 hlb).2] at g1
    exact (hodd u s h u).1 g1
  · intro u s h hlb
    obtain ⟨g1, -⟩ := hself u s h
    unfold demM at g1
    rw [(hlab.1 hlb).2] at g1
    exact indV_eq_one.1 g1
  · intro u s h hlb
    obtain ⟨g1, -⟩ := hself u s h
    unfold demM at g1
    rw [(hlab.1 hlb).2] at g1
    simp only [] at g1
    rw [← hodd u s h u, ← indV_eq_one (s := s)]
    rcases zmod2_cases (indV s u) with e | e
    · rw [e, add_zero] at g1; rw [e, g1]; decide
    · rw [e] at g1 ⊢
      simp only [true_iff]
      intro hc
      rw [hc] at g1
      exact absurd g1 (by decide)

/-- The columns of a right inverse are focused correction sets. -/
theorem focused_of (hv : a.og.Valid) (hloop : ∀ v, (v, v) ∉ a.og.edges) (hm : a.IsMats fd od) {C : GF2} (hC : a.IsRinv fd C)
    (layers : List (Finset ℕ)) : Flow.Focused ⟨a.og, a.toCorrectionFunction C, layers⟩ := by
  have hlab : ∀ {v l}, a.og.HasLabel v l ↔ (v ∈ a.og.nodes ∧ v ∉ a.og.outputs) ∧ labelOf a.og v = l := hasLabel_iff hv
  intro u s h v l hvu hl
  obtain ⟨h1, rfl⟩ := (get_corr C u s).1 h
  set s : Finset ℕ := a.nonInputs.toFinset.filter fun k => C (a.nonInputs.idxOf k) (a.nonOutputs.idxOf u) = 1 with hs
  have hsub : s ⊆ a.og.nin := by rw [nin_eq]; exact Finset.filter_subset _ _
  have hcol : a.colV C u = indV s := by
    funext k
    unfold colV indV
    simp only [hs, Finset.mem_filter, List.mem_toFinset]
    by_cases hk : k ∈ a.nonInputs
    · rw [if_pos hk]
      by_cases h : C (a.nonInputs.idxOf k) (a.nonOutputs.idxOf u) = 1
      · rw [if_pos ⟨hk, h⟩, h]
      · rw [if_neg fun h' => h h'.2, zmod2_ne_one.1 h]
    · rw [if_neg hk, if_neg fun h' => hk h'.1]
  obtain ⟨hvn, hq⟩ := hlab.1 hl
  have hvo : v ∈ a.nonOutputs := (mem_nonOutputs a).2 hvn
  have key : demM a.og a.og.nin v (indV s) = 0 := by
    have := hC u h1 v hvo
    rw [if_neg hvu, (mul_eq hm hloop C (u := u) hvo).1, hcol] at this
    exact this
  have hodd := oddV_indV a.og hsub v
  have hi := indV_eq_one (s := s) (k := v)
  unfold demM at key
  rw [hq] at key
  subst hq
  rcases hq : labelOf a.og v with q | q <;> cases q <;> rw [hq] at key <;> simp only [] at key
  all_goals
    refine ⟨fun hvs => ?_, fun hvs => ?_, fun hy => ?_⟩
  all_goals first
    | (simp; done)
    | (rw [hi.2 hvs] at key; exact absurd key (by decide))
    | (rw [hodd.2 hvs] at key; exact absurd key (by decide))
    | (cases hy; done)
    | skip
  show v ∈ s ↔ a.og.InOdd s v
  rw [← hodd, ← hi]
  rcases zmod2_cases (indV s v) with e | e
  · rw [e, add_zero] at key; rw [e, key]
  · rw [e] at key ⊢
    simp only [true_iff]
    by_contra hc
    rw [zmod2_ne_one.1 hc, zero_add] at key
    exact absurd key (by decide)

/-- The algorithm, for either kind of labels. -/
theorem toFlowOrNone_spec (hv : a.og.Valid) (hloop : ∀ v, (v, v) ∉ a.og.edges)
    (hpl : a.planar = true → ∀ kv ∈ a.og.measurements, ∃ b, kv.2 = .bloch b)
    {ord : SetOrd} (hord : ord.Valid) {mmo : MulOrd} (hmmo : mmo.Valid) :
    (∃ f, a.toFlowOrNone ord mmo = .ok (some f) ∧ f.og = a.og ∧ f.corr.keys.Nodup ∧ IsPauliFlow f ∧ f.Focused) ∨
    (a.toFlowOrNone ord mmo = .ok none ∧ ¬ HasPauliFlow a.og) := by
  obtain ⟨fd, od, hmat, hent⟩ := a.ogMatrices_ok hv hpl
  have hm : a.IsMats fd od := ⟨fun v h1 y h2 => (hent v h1 y h2).1, fun v h1 y h2 => (hent v h1 y h2).2⟩
  have hex : HasPauliFlow a.og → ∃ C, a.IsRinv fd C ∧ ¬ HasCycle (a.ordEdge od C) := by
    rintro ⟨p, lt, hp⟩
    obtain ⟨x, hx⟩ := focusing hv hp
    set C : GF2 := fun k j => x (a.nonOutputs.getD j 0) (a.nonInputs.getD k 0) with hCdef
    have hcol : ∀ u ∈ a.nonOutputs, a.colV C u = x u := by
      intro u hu
      obtain ⟨h1, -, -⟩ := hx u ((mem_nonOutputs a).1 hu).1 ((mem_nonOutputs a).1 hu).2
      funext k
      unfold colV
      simp only [hCdef]
      split
      · rename_i hk
        rw [getD_of_lt (List.idxOf_lt_length_of_mem hk), getD_of_lt (List.idxOf_lt_length_of_mem hu), List.getElem_idxOf,
          List.getElem_idxOf]
      · rename_i hk
        by_contra hne
        have := h1 k fun e => hne e.symm
        rw [nin_eq, List.mem_toFinset] at this
        exact hk this
    refine ⟨C, ?_, ?_⟩
    · intro u hu v hvo
      obtain ⟨-, h2, -⟩ := hx u ((mem_nonOutputs a).1 hu).1 ((mem_nonOutputs a).1 hu).2
      rw [(mul_eq hm hloop C hvo).1, hcol u hu]
      exact h2 v ((mem_nonOutputs a).1 hvo).1 ((mem_nonOutputs a).1 hvo).2
    · have hlt : ∀ u v, Relation.TransGen (a.ordEdge od C) u v → lt u v := by
        have h1 : ∀ u v, a.ordEdge od C u v → lt u v := by
          rintro u v ⟨hu, hvo, h⟩
          obtain ⟨-, -, h3⟩ := hx u ((mem_nonOutputs a).1 hu).1 ((mem_nonOutputs a).1 hu).2
          rw [(mul_eq hm hloop C hvo).2, hcol u hu] at h
          exact h3 v ((mem_nonOutputs a).1 hvo).1 ((mem_nonOutputs a).1 hvo).2 h
        intro u v h
        induction h with
        | single h => exact h1 _ _ h
        | tail _ h ih => exact hp.trans _ _ _ ih (h1 _ _ h)
      rintro ⟨u, hu⟩
      exact hp.irrefl u (hlt u u hu)
  unfold toFlowOrNone
  rcases computeCorrectionMatrix_spec hv hord hmmo hmat with ⟨C, h1, h2, h3⟩ | ⟨h1, h2⟩
  · simp only [h1, bind, Except.bind, pure, Except.pure]
    rcases partialOrderLayers_spec hv hord hmmo hmat C with ⟨layers, g1, g2, g3, g4⟩ | ⟨g1, g2⟩
    · simp only [g1]
      exact Or.inl ⟨_, rfl, rfl, corr_keys C, isPauliFlow_of hv hloop hm h2 g2 g3 g4, focused_of hv hloop hm h2 _⟩
    · rw [g1]
      refine Or.inr ⟨rfl, fun hp => ?_⟩
      obtain ⟨C', k1, k2⟩ := hex hp
      exact h3 C' k1 k2 g2
  · rw [h1]
    refine Or.inr ⟨rfl, fun hp => ?_⟩
    obtain ⟨C', k1, k2⟩ := hex hp
    exact k2 (h2 C' k1)

end Aog
end Graphix

namespace Graphix
open GF2

theorem Before.irrefl {layers : List (Finset ℕ)} (hd : layers.Pairwise Disjoint) (a : ℕ) : ¬ Before layers a a := by
  rintro ⟨i, j, K, L, h1, h2, h3, h4, h5⟩
  rw [List.pairwise_iff_getElem] at hd
  obtain ⟨l1, e1⟩ := List.getElem?_eq_some_iff.1 h1
  obtain ⟨l2, e2⟩ := List.getElem?_eq_some_iff.1 h2
  have hd := hd j i l2 l1 h3
  rw [e1, e2] at hd
  exact Finset.disjoint_left.1 hd h5 h4

theorem Before.trans' {layers : List (Finset ℕ)} (hd : layers.Pairwise Disjoint) {a b c : ℕ} (h : Before layers a b)
    (h' : Before layers b c) : Before layers a c := by
  obtain ⟨i, j, K, L, h1, h2, h3, h4, h5⟩ := h
  obtain ⟨i', j', K', L', h1', h2', h3', h4', h5'⟩ := h'
  have hij : j = i' := by
    rw [List.pairwise_iff_getElem] at hd
    obtain ⟨l1, e1⟩ := List.getElem?_eq_some_iff.1 h2
    obtain ⟨l2, e2⟩ := List.getElem?_eq_some_iff.1 h1'
    rcases lt_trichotomy j i' with hlt | rfl | hlt
    · have hd := hd j i' l1 l2 hlt
      rw [e1, e2] at hd
      exact (Finset.disjoint_left.1 hd h5 h4').elim
    · rfl
    · have hd := hd i' j l2 l1 hlt
      rw [e1, e2] at hd
      exact (Finset.disjoint_left.1 hd h4' h5).elim
  subst hij
  exact ⟨i, j', K, L', h1, h2', by omega, h4, h5'⟩

/-- A Pauli flow with its layers is a Pauli flow in the textbook sense. -/
theorem IsPauliFlow.has {f : Flow} (h : IsPauliFlow f) : HasPauliFlow f.og := by
  refine ⟨fun u => (f.corr.get? u).getD ∅, Before f.layers, ?_⟩
  have hs : ∀ u, u ∈ f.og.nodes → u ∉ f.og.outputs → f.corr.get? u = some ((f.corr.get? u).getD ∅) := by
    intro u h1 h2
    obtain ⟨s, hs⟩ := (h.domain u).2 ⟨h1, h2⟩
    rw [hs]; rfl
  exact {
    irrefl := Before.irrefl h.layers.disjoint
    trans := fun _ _ _ => Before.trans' h.layers.disjoint
    image := fun u h1 h2 v hv => h.image u _ v (hs u h1 h2) hv
    p1 := fun u h1 h2 => h.p1 u _ (hs u h1 h2)
    p2 := fun u h1 h2 => h.p2 u _ (hs u h1 h2)
    p3 := fun u h1 h2 => h.p3 u _ (hs u h1 h2)
    p4 := fun u h1 h2 => h.p4 u _ (hs u h1 h2)
    p5 := fun u h1 h2 => h.p5 u _ (hs u h1 h2)
    p6 := fun u h1 h2 => h.p6 u _ (hs u h1 h2)
    p7 := fun u h1 h2 => h.p7 u _ (hs u h1 h2)
    p8 := fun u h1 h2 => h.p8 u _ (hs u h1 h2)
    p9 := fun u h1 h2 => h.p9 u _ (hs u h1 h2) }

/-- A gflow with its layers is a gflow in the textbook sense. -/
theorem IsGFlow.has {f : Flow} (h : IsGFlow f) : HasGFlow f.og := by
  refine ⟨fun u => (f.corr.get? u).getD ∅, Before f.layers, ?_⟩
  have hs : ∀ u, u ∈ f.og.nodes → u ∉ f.og.outputs → f.corr.get? u = some ((f.corr.get? u).getD ∅) := by
    intro u h1 h2
    obtain ⟨s, hs⟩ := (h.domain u).2 ⟨h1, h2⟩
    rw [hs]; rfl
  exact {
    irrefl := Before.irrefl h.layers.disjoint
    trans := fun _ _ _ => Before.trans' h.layers.disjoint
    image := fun u h1 h2 v hv => h.image u _ v (hs u h1 h2) hv
    g1 := fun u h1 h2 => h.g1 u _ (hs u h1 h2)
    g2 := fun u h1 h2 => h.g2 u _ (hs u h1 h2)
    g3 := fun u h1 h2 => h.g3 u _ (hs u h1 h2)
    g4 := fun u h1 h2 => h.g4 u _ (hs u h1 h2)
    g5 := fun u h1 h2 => h.g5 u _ (hs u h1 h2) }

theorem planar_label {og : OpenGraph} (hpl : ∀ kv ∈ og.measurements, ∃ b, kv.2 = .bloch b) {u : ℕ} {x : Axis} :
    ¬ og.HasLabel u (.axis x) := by
  rintro ⟨m, h1, h2⟩
  obtain ⟨b, hb⟩ := hpl _ (PyDict.mem_of_get? h1)
  simp only at hb
  subst hb
  cases h2

theorem planar_has {og : OpenGraph} (hv : og.Valid) (hpl : ∀ kv ∈ og.measurements, ∃ b, kv.2 = .bloch b) {u : ℕ}
    (h1 : u ∈ og.nodes) (h2 : u ∉ og.outputs) : ∃ p, og.HasLabel u (.plane p) := by
  rcases hq : Aog.labelOf og u with q | q
  · exact ⟨q, (hasLabel_iff hv).2 ⟨⟨h1, h2⟩, hq⟩⟩
  · exact absurd ((hasLabel_iff hv).2 ⟨⟨h1, h2⟩, hq⟩) (planar_label hpl)

/-- **C28.** On every open graph, `to_pauliflow_or_none` raises no exception; either it returns a Pauli flow of this open graph
(in the sense of P1-P9, and `check_well_formed` accepts it), or it returns `None` and the open graph has no Pauli flow.
For all orders in which Python iterates over sets and for all schedules of the parallel matrix products. -/
theorem C28_pauliflow (og : OpenGraph) (hv : og.Valid) (hloop : ∀ v, (v, v) ∉ og.edges) (ord : SetOrd) (hord : ord.Valid)
    (mmo : MulOrd) (hmmo : mmo.Valid) :
    (∃ f, og.toPauliflowOrNone ord mmo = .ok (some f) ∧ f.og = og ∧ IsPauliFlow f ∧
      ∀ ord' : SetOrd, ord'.Valid → f.checkPauli ord' = .ok ()) ∨
    (og.toPauliflowOrNone ord mmo = .ok none ∧ ¬ HasPauliFlow og) := by
  rcases Aog.toFlowOrNone_spec (a := ⟨og, false⟩) hv hloop (by simp) hord hmmo with ⟨f, h1, h2, h3, h4, -⟩ | ⟨h1, h2⟩
  · refine Or.inl ⟨f, h1, h2, h4, fun ord' hord' => ?_⟩
    have hv' : f.og.Valid := by rw [h2]; exact hv
    exact (C29_pauliflow f hv' h3 ord' hord').2 h4
  · exact Or.inr ⟨h1, h2⟩

/-- **C28.** On every open graph whose measurements are planar, `to_gflow_or_none` raises no exception; either it returns a gflow
of this open graph (in the sense of G1-G5, and `check_well_formed` accepts it), or it returns `None` and the open graph has no
gflow. -/
theorem C28_gflow (og : OpenGraph) (hv : og.Valid) (hloop : ∀ v, (v, v) ∉ og.edges)
    (hpl : ∀ kv ∈ og.measurements, ∃ b, kv.2 = .bloch b) (ord : SetOrd) (hord : ord.Valid) (mmo : MulOrd) (hmmo : mmo.Valid) :
    (∃ f, og.toGflowOrNone ord mmo = .ok (some f) ∧ f.og = og ∧ IsGFlow f ∧
      ∀ ord' : SetOrd, ord'.Valid → f.checkG ord' = .ok ()) ∨
    (og.toGflowOrNone ord mmo = .ok none ∧ ¬ HasGFlow og) := by
  have hax : ∀ {u x}, ¬ og.HasLabel u (.axis x) := planar_label hpl
  rcases Aog.toFlowOrNone_spec (a := ⟨og, true⟩) hv hloop (fun _ => hpl) hord hmmo with ⟨f, h1, h2, h3, h4, -⟩ | ⟨h1, h2⟩
  · have h2 : f.og = og := h2
    have hG : IsGFlow f := by
      refine { toFlowBase := h4.toFlowBase, planes := ?_, g1 := ?_, g2 := ?_, g3 := h4.p4, g4 := h4.p5, g5 := h4.p6 }
      · rw [h2]; exact fun u => planar_has hv hpl
      · exact fun u s hs v hvs hvu => h4.p1 u s hs v hvs hvu (by rw [h2]; exact hax) (by rw [h2]; exact hax)
      · exact fun u s hs v hvn hvs hvu => h4.p2 u s hs v hvn hvs hvu (by rw [h2]; exact hax) (by rw [h2]; exact hax)
    refine Or.inl ⟨f, h1, h2, hG, fun ord' hord' => ?_⟩
    have hv' : f.og.Valid := by rw [h2]; exact hv
    exact (C29_gflow f hv' h3 ord' hord').2 hG
  · refine Or.inr ⟨h1, fun ⟨g, lt, hg⟩ => h2 ⟨g, lt, ?_⟩⟩
    exact {
      irrefl := hg.irrefl
      trans := hg.trans
      image := hg.image
      p1 := fun u a1 a2 v a3 a4 _ _ => hg.g1 u a1 a2 v a3 a4
      p2 := fun u a1 a2 v a3 a4 a5 _ _ => hg.g2 u a1 a2 v a3 a4 a5
      p3 := fun _ _ _ _ _ h => absurd h hax
      p4 := hg.g3
      p5 := hg.g4
      p6 := hg.g5
      p7 := fun _ _ _ h => absurd h hax
      p8 := fun _ _ _ h => absurd h hax
      p9 := fun _ _ _ h => absurd h hax }

/-- **C28.** If somebody knows a Pauli flow of the open graph, `to_pauliflow_or_none` finds one. -/
theorem C28_pauliflow_complete (f : Flow) (hv : f.og.Valid) (hloop : ∀ v, (v, v) ∉ f.og.edges) (hf : IsPauliFlow f) (ord : SetOrd)
    (hord : ord.Valid) (mmo : MulOrd) (hmmo : mmo.Valid) :
    ∃ f', f.og.toPauliflowOrNone ord mmo = .ok (some f') ∧ f'.og = f.og ∧ IsPauliFlow f' := by
  rcases C28_pauliflow f.og hv hloop ord hord mmo hmmo with ⟨f', h1, h2, h3, -⟩ | ⟨-, h⟩
  · exact ⟨f', h1, h2, h3⟩
  · exact (h hf.has).elim

/-- **C28.** If somebody knows a gflow of the open graph, `to_gflow_or_none` finds one. -/
theorem C28_gflow_complete (f : Flow) (hv : f.og.Valid) (hloop : ∀ v, (v, v) ∉ f.og.edges)
    (hpl : ∀ kv ∈ f.og.measurements, ∃ b, kv.2 = .bloch b) (hf : IsGFlow f) (ord : SetOrd)
    (hord : ord.Valid) (mmo : MulOrd) (hmmo : mmo.Valid) :
    ∃ f', f.og.toGflowOrNone ord mmo = .ok (some f') ∧ f'.og = f.og ∧ IsGFlow f' := by
  rcases C28_gflow f.og hv hloop hpl ord hord mmo hmmo with ⟨f', h1, h2, h3, -⟩ | ⟨-, h⟩
  · exact ⟨f', h1, h2, h3⟩
  · exact (h hf.has).elim

/-- **C28.** `to_pauliflow` and `to_gflow` return what the `_or_none` methods find and raise `OpenGraphError` exactly when there is
no flow. -/
theorem C28_to_pauliflow (og : OpenGraph) (hv : og.Valid) (hloop : ∀ v, (v, v) ∉ og.edges) (ord : SetOrd) (hord : ord.Valid)
    (mmo : MulOrd) (hmmo : mmo.Valid) :
    (∃ f, og.toPauliflow ord mmo = .ok f ∧ f.og = og ∧ IsPauliFlow f) ∨
    (og.toPauliflow ord mmo = .error .openGraphError ∧ ¬ HasPauliFlow og) := by
  unfold OpenGraph.toPauliflow
  rcases C28_pauliflow og hv hloop ord hord mmo hmmo with ⟨f, h1, h2, h3, -⟩ | ⟨h1, h2⟩
  · rw [h1]; exact Or.inl ⟨f, rfl, h2, h3⟩
  · rw [h1]; exact Or.inr ⟨rfl, h2⟩

theorem C28_to_gflow (og : OpenGraph) (hv : og.Valid) (hloop : ∀ v, (v, v) ∉ og.edges)
    (hpl : ∀ kv ∈ og.measurements, ∃ b, kv.2 = .bloch b) (ord : SetOrd) (hord : ord.Valid) (mmo : MulOrd) (hmmo : mmo.Valid) :
    (∃ f, og.toGflow ord mmo = .ok f ∧ f.og = og ∧ IsGFlow f) ∨
    (og.toGflow ord mmo = .error .openGraphError ∧ ¬ HasGFlow og) := by
  unfold OpenGraph.toGflow
  rcases C28_gflow og hv hloop hpl ord hord mmo hmmo with ⟨f, h1, h2, h3, -⟩ | ⟨h1, h2⟩
  · rw [h1]; exact Or.inl ⟨f, rfl, h2, h3⟩
  · rw [h1]; exact Or.inr ⟨rfl, h2⟩

/-- **C28.** The flows that `to_pauliflow` and `to_gflow` return are focused, as documented. -/
theorem C28_focused (og : OpenGraph) (hv : og.Valid) (hloop : ∀ v, (v, v) ∉ og.edges) (ord : SetOrd) (hord : ord.Valid)
    (mmo : MulOrd) (hmmo : mmo.Valid) (f : Flow)
    (hf : og.toPauliflow ord mmo = .ok f ∨ (∀ kv ∈ og.measurements, ∃ b, kv.2 = .bloch b) ∧ og.toGflow ord mmo = .ok f) :
    f.Focused ∧ f.corr.keys.Nodup := by
  rcases hf with hf | ⟨hpl, hf⟩
  · unfold OpenGraph.toPauliflow at hf
    rcases Aog.toFlowOrNone_spec (a := ⟨og, false⟩) hv hloop (by simp) hord hmmo with ⟨f', h1, h2, h3, -, h4⟩ | ⟨h1, h2⟩
    · have h1 : og.toPauliflowOrNone ord mmo = .ok (some f') := h1
      rw [h1] at hf
      cases hf
      exact ⟨h4, h3⟩
    · have h1 : og.toPauliflowOrNone ord mmo = .ok none := h1
      rw [h1] at hf
      cases hf
  · unfold OpenGraph.toGflow at hf
    rcases Aog.toFlowOrNone_spec (a := ⟨og, true⟩) hv hloop (fun _ => hpl) hord hmmo with ⟨f', h1, h2, h3, -, h4⟩ | ⟨h1, h2⟩
    · have h1 : og.toGflowOrNone ord mmo = .ok (some f') := h1
      rw [h1] at hf
      cases hf
      exact ⟨h4, h3⟩
    · have h1 : og.toGflowOrNone ord mmo = .ok none := h1
      rw [h1] at hf
      cases hf

/-- A schedule of the matrix products. -/
def exMmo : MulOrd := fun _ m l => (List.range m).product (List.range l)

theorem exMmo_valid : exMmo.Valid := fun _ _ _ => List.Perm.refl _

/-- The path with Pauli measurements has a Pauli flow, and one is found. -/
example : ∃ f', (exOg exLabelsP).toPauliflowOrNone exOrd exMmo = .ok (some f') ∧ f'.og = exOg exLabelsP ∧ IsPauliFlow f' :=
  C28_pauliflow_complete exFlowP (exOg_valid _) (by simp [exFlowP, exOg]; omega) exFlowP_pauli exOrd exOrd_valid exMmo exMmo_valid

/-- The path with measurements in the XY plane has a gflow, and one is found. -/
example : ∃ f', (exOg exLabels).toGflowOrNone exOrd exMmo = .ok (some f') ∧ f'.og = exOg exLabels ∧ IsGFlow f' :=
  C28_gflow_complete (exFlow exLabels) (exOg_valid _) (by simp [exFlow, exOg]; omega) (by simp [exFlow, exOg, exLabels])
    ((C29_gflow (exFlow exLabels) (exOg_valid _) (by simp [exFlow, PyDict.keys]) exOrd exOrd_valid).1 rfl)
    exOrd exOrd_valid exMmo exMmo_valid

/-- An edge between two inputs, one of which is an output, has no Pauli flow. -/
example : (OpenGraph.mk {0, 1} [(0, 1)] [0, 1] [1] [(0, .bloch ⟨1/4, .XY⟩)] []).toPauliflowOrNone exOrd exMmo = .ok none := rfl

end Graphix
