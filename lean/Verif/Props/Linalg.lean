import Verif.Proofs.Linalg
import Mathlib.LinearAlgebra.Matrix.NonsingularInverse
import Mathlib.LinearAlgebra.Dimension.Constructions
import Mathlib.Tactic.LinearCombination
import Mathlib.Algebra.Field.ZMod

/-!
# C23, C24, C25: linear algebra over GF(2)
-/

namespace Graphix
namespace GF2

theorem RowComb.span_le {m : ℕ} {a a' : GF2} (h : RowComb m a a') (n : ℕ) : rowSpace m n a' ≤ rowSpace m n a := by
  unfold rowSpace
  rw [Submodule.span_le]
  rintro _ ⟨r, rfl⟩
  obtain ⟨u, hu⟩ := h r r.2
  have : (fun j : Fin n => a' r j) = ∑ k : Fin m, u k • (fun j : Fin n => a k j) := by
    funext j
    rw [Finset.sum_apply, hu, Finset.sum_range]
    rfl
  simp only []
  rw [this]
  exact Submodule.sum_mem _ fun k _ => Submodule.smul_mem _ _ (Submodule.subset_span ⟨k, rfl⟩)

/-- **C23** `gauss_elimination` (`full = false`) and `row_reduction` (`full = true`) with `ncols` columns: the
first `ncols` columns of the result are in (reduced) row-echelon form, and the result has the same row space
as the input. -/
theorem C23_elimination (full : Bool) (m n ncols : ℕ) (a : GF2) :
    (∃ p piv, Echelon full m ncols (elimination full m ncols a) p piv) ∧
      rowSpace m n (elimination full m ncols a) = rowSpace m n a := by
  obtain ⟨h1, h2⟩ := elimination_spec full m ncols a
  exact ⟨h1, le_antisymm (h2.1.span_le n) (h2.2.span_le n)⟩

/-- Dimension of the row space of a matrix in echelon form. -/
theorem Echelon.finrank {full : Bool} {m n : ℕ} {a : GF2} {p : ℕ} {piv : ℕ → ℕ} (h : Echelon full m n a p piv) :
    Module.finrank (ZMod 2) (rowSpace m n a) = p := by
  have hspan : rowSpace m n a = Submodule.span (ZMod 2) (Set.range fun i : Fin p => fun j : Fin n => a i j) := by
    unfold rowSpace
    apply le_antisymm
    · rw [Submodule.span_le]
      rintro _ ⟨r, rfl⟩
      by_cases hr : (r : ℕ) < p
      · exact Submodule.subset_span ⟨⟨r, hr⟩, rfl⟩
      · have : (fun j : Fin n => a r j) = 0 := by
          funext j; exact h.zero r (by omega) r.2 j j.2
        simp only [SetLike.mem_coe]
        rw [this]; exact Submodule.zero_mem _
    · apply Submodule.span_mono
      rintro _ ⟨r, rfl⟩
      exact ⟨⟨r, lt_of_lt_of_le r.2 h.le⟩, rfl⟩
  have hli : LinearIndependent (ZMod 2) (fun i : Fin p => fun j : Fin n => a i j) := by
    rw [Fintype.linearIndependent_iff]
    intro g hg i
    have := h.indep (fun k => if hk : k < p then g ⟨k, hk⟩ else 0) (fun l hl => ?_) i i.2
    · simpa using this
    · have h2 := congrFun hg ⟨l, hl⟩
      rw [Finset.sum_apply] at h2
      simp only [Pi.smul_apply, smul_eq_mul, Pi.zero_apply] at h2
      refine Eq.trans ?_ h2
      have hle := h.le
      obtain ⟨d, rfl⟩ := Nat.exists_eq_add_of_le hle
      rw [Finset.sum_range_add, Finset.sum_range]
      rw [Finset.sum_eq_zero (s := Finset.range d)]
      · simp
      · intro k _; simp
  rw [hspan, finrank_span_eq_card hli, Fintype.card_fin]

/-- **C23** `rank` is the dimension of the row space, that is, the rank of the matrix. -/
theorem C23_rank (m n : ℕ) (a : GF2) :
    rank m n a = Module.finrank (ZMod 2) (rowSpace m n a) ∧ rank m n a = (toMat m n a).rank := by
  obtain ⟨⟨p, piv, h1⟩, h2⟩ := C23_elimination true m n n a
  have e : rank m n a = Module.finrank (ZMod 2) (rowSpace m n a) := by
    rw [← h2, h1.finrank]; exact h1.count
  refine ⟨e, ?_⟩
  have h3 := Matrix.rank_eq_finrank_span_row (toMat m n a)
  exact e.trans h3.symm

/-! ### Right inverse -/

theorem leading_some_of {a : GF2} {N r c : ℕ} (hc : c < N) (h1 : a r c = 1) (h0 : ∀ l, l < c → a r l = 0) :
    leading a N r = some c := by
  unfold leading
  rw [List.find?_eq_some_iff_getElem]
  refine ⟨by simpa using h1, c, by simpa using hc, by simp, fun j hj => ?_⟩
  simp [h0 j hj]

open scoped Classical in
theorem rinvLoop_spec {m n : ℕ} {red : GF2} {piv : ℕ → ℕ} (h : Echelon true m n red m piv) :
    ∀ (d i : ℕ) (rinv : GF2), i + d = m → ∃ b, rinvLoop n m red (List.range' i d) rinv = some b ∧
      ∀ r c, b r c = if ∃ k, i ≤ k ∧ k < m ∧ piv k = r then
        ∑ k ∈ Finset.range m, (if piv k = r then red k (n + c) else 0) else rinv r c
  | 0, i, rinv, hi => by
    refine ⟨rinv, rfl, fun r c => ?_⟩
    rw [if_neg]; rintro ⟨k, h1, h2, -⟩; omega
  | d + 1, i, rinv, hi => by
    have him : i < m := by omega
    rw [List.range'_succ]
    have hl := leading_some_of (N := n + m) (a := red) (r := i) (by have := h.lt i him; omega) (h.one i him) (h.lead i him)
    obtain ⟨b, h1, h2⟩ := rinvLoop_spec h d (i + 1) (fun r c => if r = piv i then red i (n + c) else rinv r c) (by omega)
    refine ⟨b, by simp only [rinvLoop, hl]; exact h1, fun r c => ?_⟩
    rw [h2]
    have hinj : ∀ k, k < m → piv k = piv i → k = i := by
      intro k hk hki
      rcases lt_trichotomy k i with hlt | heq | hgt
      · have := h.mono k i hlt him; omega
      · exact heq
      · have := h.mono i k hgt hk; omega
    by_cases hr : r = piv i
    · rw [if_neg, if_pos hr, if_pos ⟨i, le_refl _, him, hr.symm⟩]
      · rw [Finset.sum_eq_single_of_mem i (Finset.mem_range.2 him), if_pos hr.symm]
        intro k hk hne
        rw [if_neg]
        intro hk'
        exact hne (hinj k (Finset.mem_range.1 hk) (hk'.trans hr))
      · rintro ⟨k, hk1, hk2, hk3⟩
        have := hinj k hk2 (hk3.trans hr); omega
    · have : (∃ k, i + 1 ≤ k ∧ k < m ∧ piv k = r) ↔ (∃ k, i ≤ k ∧ k < m ∧ piv k = r) := by
        constructor
        · rintro ⟨k, h1, h2, h3⟩; exact ⟨k, by omega, h2, h3⟩
        · rintro ⟨k, h1, h2, h3⟩
          refine ⟨k, ?_, h2, h3⟩
          rcases Nat.eq_or_lt_of_le h1 with rfl | h'
          · exact absurd h3.symm hr
          · exact h'
      simp only [this, if_neg hr]

/-- **C24** `right_inverse` of a binary `m × n` matrix `A` either returns `B` with `A · B = 1`, or returns
`None`, and then no right inverse exists. -/
theorem C24_right_inverse (m n : ℕ) (a : GF2) :
    (∃ b, rightInverse m n a = .ok b ∧ toMat m n a * toMat n m b = 1) ∨
      (rightInverse m n a = .noInverse ∧ ¬ ∃ B : Matrix (Fin n) (Fin m) (ZMod 2), toMat m n a * B = 1) := by
  unfold rightInverse
  by_cases hmn : n < m
  · rw [if_pos hmn]
    refine Or.inr ⟨rfl, ?_⟩
    rintro ⟨B, hB⟩
    have h1 : (1 : Matrix (Fin m) (Fin m) (ZMod 2)).rank ≤ n := by
      rw [← hB]
      refine (Matrix.rank_mul_le_left _ _).trans ?_
      have := Matrix.rank_le_card_width (toMat m n a)
      simpa using this
    rw [Matrix.rank_one, Fintype.card_fin] at h1
    omega
  rw [if_neg hmn]
  simp only []
  obtain ⟨⟨p, piv, he⟩, hcomb, hcomb'⟩ := elimination_spec true m n (hstack n a eye)
  set red := elimination true m n (hstack n a eye) with hred
  choose! u hu using hcomb
  choose! v hv using hcomb'
  -- the left block is `U A`, the right block is `U`, and `V U = 1`
  have hleft : ∀ r, r < m → ∀ l, l < n → red r l = ∑ k ∈ Finset.range m, u r k * a k l := by
    intro r hr l hl
    rw [hu r hr]
    exact Finset.sum_congr rfl fun k _ => by simp [hstack, hl]
  have hright : ∀ r, r < m → ∀ c, c < m → red r (n + c) = u r c := by
    intro r hr c hc
    rw [hu r hr, Finset.sum_congr rfl (g := fun k => if k = c then u r k else 0)
      (fun k _ => by by_cases h : k = c <;> simp [hstack, eye, h])]
    simp [hc]
  set U : Matrix (Fin m) (Fin m) (ZMod 2) := Matrix.of fun r c => u r c with hU
  set V : Matrix (Fin m) (Fin m) (ZMod 2) := Matrix.of fun r c => v r c with hV
  have hVU : V * U = 1 := by
    ext r c
    have := hv r r.2 (n + c)
    rw [Matrix.mul_apply]
    have e1 : (hstack n a eye) r (n + c) = (1 : Matrix (Fin m) (Fin m) (ZMod 2)) r c := by
      rw [Matrix.one_apply]
      simp [hstack, eye, Fin.ext_iff]
    rw [← e1, this, Finset.sum_range]
    exact Finset.sum_congr rfl fun k _ => by rw [hright k k.2 c c.2]; rfl
  have hUV : U * V = 1 := mul_eq_one_comm.1 hVU
  have hR : toMat m n red = U * toMat m n a := by
    ext r l
    rw [Matrix.mul_apply]
    simp only [toMat, Matrix.of_apply, hU]
    rw [hleft r r.2 l l.2, Finset.sum_range]
  rw [he.count]
  by_cases hpm : m = p
  · rw [if_neg (not_not.2 hpm)]
    subst hpm
    left
    obtain ⟨b, hb1, hb2⟩ := rinvLoop_spec he m 0 (fun _ _ => 0) (by omega)
    rw [← List.range_eq_range'] at hb1
    rw [hb1]
    refine ⟨b, rfl, ?_⟩
    -- `B = E U` with `R E = 1`
    set E : Matrix (Fin n) (Fin m) (ZMod 2) := Matrix.of fun r k => if piv k = r then 1 else 0 with hE
    have hB : toMat n m b = E * U := by
      ext r c
      rw [Matrix.mul_apply]
      simp only [toMat, Matrix.of_apply, hE, hU, ite_mul, one_mul, zero_mul]
      rw [hb2]
      have : ∑ k ∈ Finset.range m, (if piv k = r then red k (n + c) else 0) =
          ∑ k : Fin m, if piv k = (r : ℕ) then u k c else 0 := by
        rw [Finset.sum_range]
        exact Finset.sum_congr rfl fun k _ => by rw [hright k k.2 c c.2]
      by_cases hex : ∃ k, 0 ≤ k ∧ k < m ∧ piv k = (r : ℕ)
      · rw [if_pos hex, this]
      · rw [if_neg hex]
        symm
        apply Finset.sum_eq_zero
        intro k _
        rw [if_neg]
        intro hk
        exact hex ⟨k, Nat.zero_le _, k.2, hk⟩
    have hRE : toMat m n red * E = 1 := by
      ext r k
      rw [Matrix.mul_apply, Matrix.one_apply]
      simp only [toMat, Matrix.of_apply, hE]
      rw [Finset.sum_eq_single_of_mem (⟨piv k, he.lt k k.2⟩ : Fin n) (Finset.mem_univ _)]
      · simp only [if_true, mul_one]
        by_cases hrk : r = k
        · subst hrk; rw [if_pos rfl]; exact he.one r r.2
        · rw [if_neg hrk]; exact he.reduced rfl r k r.2 k.2 (fun h => hrk (Fin.ext h))
      · intro l _ hl
        rw [if_neg, mul_zero]
        intro h; exact hl (Fin.ext h.symm)
    have hA : toMat m n a = V * toMat m n red := by
      rw [hR, ← Matrix.mul_assoc, hVU, Matrix.one_mul]
    rw [hA, hB, Matrix.mul_assoc, ← Matrix.mul_assoc (toMat m n red), hRE, Matrix.one_mul, hVU]
  · rw [if_pos hpm]
    refine Or.inr ⟨rfl, ?_⟩
    rintro ⟨B, hB⟩
    have hlt : p < m := lt_of_le_of_ne he.le (Ne.symm hpm)
    -- row `p` of `U A` is zero
    have hzero : ∀ c : Fin m, U ⟨p, hlt⟩ c = 0 := by
      intro c
      have h1 : (toMat m n red * B) ⟨p, hlt⟩ c = U ⟨p, hlt⟩ c := by
        rw [hR, Matrix.mul_assoc, hB, Matrix.mul_one]
      rw [← h1, Matrix.mul_apply]
      apply Finset.sum_eq_zero
      intro l _
      have : toMat m n red ⟨p, hlt⟩ l = 0 := he.zero p (le_refl _) hlt l l.2
      rw [this, zero_mul]
    have h2 : (U * V) ⟨p, hlt⟩ ⟨p, hlt⟩ = 0 := by
      rw [Matrix.mul_apply]
      exact Finset.sum_eq_zero fun c _ => by rw [hzero c, zero_mul]
    rw [hUV, Matrix.one_apply_eq] at h2
    exact one_ne_zero h2

/-- A matrix without right inverse, and one with. -/
example : rightInverse 2 3 (fun i j => if j = 1 + i then 1 else 0) ≠ .noInverse ∧
    rightInverse 2 3 (fun _ _ => 1) = .noInverse := by
  constructor
  · rcases C24_right_inverse 2 3 (fun i j => if j = 1 + i then 1 else 0) with ⟨b, h, -⟩ | ⟨-, h⟩
    · rw [h]; exact RightInverse.noConfusion
    · refine absurd ⟨Matrix.of fun i j => if (i : ℕ) = 1 + j then 1 else 0, ?_⟩ h
      decide
  · rcases C24_right_inverse 2 3 (fun _ _ => 1) with ⟨b, -, h⟩ | ⟨h, -⟩
    · exfalso
      have e1 := congrFun (congrFun h 0) 0
      have e2 := congrFun (congrFun h 1) 0
      simp [Matrix.mul_apply, toMat] at e1 e2
      rw [e1] at e2
      exact absurd e2 (by decide)
    · exact h

/-! ### Null space -/

theorem Echelon.filter {full : Bool} {m N : ℕ} {a : GF2} {p : ℕ} {piv : ℕ → ℕ} (h : Echelon full m N a p piv) :
    (List.range m).filter (fun r => !a.rowAny N r) = List.range' p (m - p) := by
  have : (List.range m).filter (fun r => !a.rowAny N r) = (List.range m).filter (fun r => decide (p ≤ r)) := by
    apply List.filter_congr
    intro r hr
    rw [Bool.eq_iff_iff]
    have := h.rowAny r (List.mem_range.1 hr)
    rw [Bool.not_eq_true', ← Bool.not_eq_true, this]
    simp
  rw [this]
  have hle := h.le
  clear this
  obtain ⟨d, rfl⟩ := Nat.exists_eq_add_of_le hle
  rw [List.range_add, List.filter_append, List.filter_eq_nil_iff.2 (by simp), List.filter_eq_self.2 (by simp),
    List.nil_append, Nat.add_sub_cancel_left, List.range'_eq_map_range]

/-- **C25** The rows of `null_space` of an `m × n` matrix `A` are a basis of the set of all `x` with `A·x = 0`:
they are linearly independent and span the kernel. -/
theorem C25_null_space (m n : ℕ) (a : GF2) :
    LinearIndependent (ZMod 2) (fun i : Fin (nullSpace m n a).1 => fun j : Fin n => (nullSpace m n a).2 i j) ∧
    ∀ x : Fin n → ZMod 2, x ∈ rowSpace (nullSpace m n a).1 n (nullSpace m n a).2 ↔
      (toMat m n a).mulVec x = 0 := by
  obtain ⟨⟨p, piv, he⟩, hcomb, hcomb'⟩ := elimination_spec false n m (hstack m (fun i j => a j i) eye)
  set red := elimination false n m (hstack m (fun i j => a j i) eye) with hred
  choose! u hu using hcomb
  choose! v hv using hcomb'
  have hleft : ∀ r, r < n → ∀ l, l < m → red r l = ∑ k ∈ Finset.range n, u r k * a l k := by
    intro r hr l hl
    rw [hu r hr]
    exact Finset.sum_congr rfl fun k _ => by simp [hstack, hl]
  have hright : ∀ r, r < n → ∀ c, c < n → red r (m + c) = u r c := by
    intro r hr c hc
    rw [hu r hr, Finset.sum_congr rfl (g := fun k => if k = c then u r k else 0)
      (fun k _ => by by_cases h : k = c <;> simp [hstack, eye, h])]
    simp [hc]
  set U : Matrix (Fin n) (Fin n) (ZMod 2) := Matrix.of fun r c => u r c with hU
  set V : Matrix (Fin n) (Fin n) (ZMod 2) := Matrix.of fun r c => v r c with hV
  have hVU : V * U = 1 := by
    ext r c
    have := hv r r.2 (m + c)
    rw [Matrix.mul_apply]
    have e1 : (hstack m (fun i j => a j i) eye) r (m + c) = (1 : Matrix (Fin n) (Fin n) (ZMod 2)) r c := by
      rw [Matrix.one_apply]
      simp [hstack, eye, Fin.ext_iff]
    rw [← e1, this, Finset.sum_range]
    exact Finset.sum_congr rfl fun k _ => by rw [hright k k.2 c c.2]; rfl
  have hUV : U * V = 1 := mul_eq_one_comm.1 hVU
  have hns : nullSpace m n a = (n - p, fun r c => red ((List.range' p (n - p)).getD r 0) (m + c)) := by
    unfold nullSpace
    simp only []
    rw [← hred, he.filter, List.length_range']
  have hrow : ∀ i, i < n - p → ∀ c, c < n → (nullSpace m n a).2 i c = u (p + i) c := by
    intro i hi c hc
    rw [hns]
    simp only []
    rw [List.getD_eq_getElem?_getD, List.getElem?_range' hi, Option.getD_some, one_mul, hright _ (by omega) c hc]
  have hcard : (nullSpace m n a).1 = n - p := by rw [hns]
  have hpn := he.le
  constructor
  · rw [Fintype.linearIndependent_iff]
    intro g hg i
    -- combination `y` of the rows of `U`
    have hy : Matrix.vecMul (fun k : Fin n => if hk : p ≤ k ∧ (k : ℕ) - p < (nullSpace m n a).1 then
        g ⟨k - p, hk.2⟩ else 0) U = 0 := by
      funext c
      have h1 := congrFun hg c
      rw [Finset.sum_apply] at h1
      simp only [Pi.smul_apply, smul_eq_mul, Pi.zero_apply] at h1
      refine Eq.trans ?_ h1
      unfold Matrix.vecMul dotProduct
      simp only [hU, Matrix.of_apply]
      rw [← Finset.sum_range (fun k => (if hk : p ≤ k ∧ k - p < (nullSpace m n a).1 then
        g ⟨k - p, hk.2⟩ else 0) * u k c)]
      have hnp : Finset.range n = Finset.range (p + (nullSpace m n a).1) := by rw [hcard]; congr 1; omega
      rw [hnp, Finset.sum_range_add, Finset.sum_eq_zero (s := Finset.range p), zero_add, Finset.sum_range]
      · refine Finset.sum_congr rfl fun k _ => ?_
        rw [hrow k (by omega) c c.2, dif_pos ⟨by omega, by have := k.2; omega⟩]
        simp
      · intro k hk
        rw [dif_neg (by rw [Finset.mem_range] at hk; omega), zero_mul]
    have hy0 := congrArg (fun y => Matrix.vecMul y V) hy
    simp only [Matrix.vecMul_vecMul, hUV, Matrix.vecMul_one, Matrix.zero_vecMul] at hy0
    have hi := i.2
    have := congrFun hy0 ⟨p + i, by omega⟩
    simp only [Pi.zero_apply] at this
    rw [dif_pos ⟨by omega, by omega⟩] at this
    simpa using this
  · intro x
    constructor
    · intro hx
      have : rowSpace (nullSpace m n a).1 n (nullSpace m n a).2 ≤ LinearMap.ker (Matrix.mulVecLin (toMat m n a)) := by
        unfold rowSpace
        rw [Submodule.span_le]
        rintro _ ⟨i, rfl⟩
        have hi := i.2
        rw [SetLike.mem_coe, LinearMap.mem_ker, Matrix.mulVecLin_apply]
        funext l
        have h0 := he.zero (p + i) (by omega) (by omega) l l.2
        rw [hleft _ (by omega) l l.2] at h0
        rw [Pi.zero_apply, ← h0]
        simp only [Matrix.mulVec, dotProduct, toMat, Matrix.of_apply]
        rw [Finset.sum_range]
        refine Finset.sum_congr rfl fun k _ => ?_
        rw [hrow i (by omega) k k.2, mul_comm]
      exact this hx
    · intro hx
      set y := Matrix.vecMul x V with hy
      have hyx : Matrix.vecMul y U = x := by rw [hy, Matrix.vecMul_vecMul, hVU, Matrix.vecMul_one]
      have hind := he.indep (fun k => if hk : k < n then y ⟨k, hk⟩ else 0) (fun l hl => by
        have h1 := congrFun hx ⟨l, hl⟩
        rw [Pi.zero_apply] at h1
        refine Eq.trans ?_ h1
        simp only [Matrix.mulVec, dotProduct, toMat, Matrix.of_apply]
        rw [Finset.sum_range]
        have e1 : ∀ k : Fin n, (if hk : (k : ℕ) < n then y ⟨k, hk⟩ else 0) * red k l =
            ∑ c : Fin n, y k * (u k c * a l c) := by
          intro k
          rw [dif_pos k.2, hleft k k.2 l hl, Finset.sum_range, Finset.mul_sum]
        rw [Finset.sum_congr rfl (fun k _ => e1 k), Finset.sum_comm]
        refine Finset.sum_congr rfl fun c _ => ?_
        have : x c = ∑ k : Fin n, y k * u k c := by rw [← hyx]; rfl
        rw [this, Finset.mul_sum]
        exact Finset.sum_congr rfl fun k _ => by ring)
      have hx' : x = ∑ i : Fin (nullSpace m n a).1, y ⟨p + i, by have := i.2; omega⟩ •
          (fun j : Fin n => (nullSpace m n a).2 i j) := by
        funext c
        rw [Finset.sum_apply]
        have : x c = ∑ k : Fin n, y k * u k c := by rw [← hyx]; rfl
        rw [this]
        have e1 : ∑ k : Fin n, y k * u k c = ∑ k ∈ Finset.range n, (if hk : k < n then y ⟨k, hk⟩ else 0) * u k c := by
          rw [Finset.sum_range]
          exact Finset.sum_congr rfl fun k _ => by rw [dif_pos k.2]
        have hnp : Finset.range n = Finset.range (p + (nullSpace m n a).1) := by rw [hcard]; congr 1; omega
        rw [e1, hnp, Finset.sum_range_add, Finset.sum_eq_zero (s := Finset.range p), zero_add, Finset.sum_range]
        · refine Finset.sum_congr rfl fun k _ => ?_
          have := k.2
          rw [Pi.smul_apply, smul_eq_mul, hrow k (by omega) c c.2, dif_pos (by omega)]
        · intro k hk
          rw [hind k (Finset.mem_range.1 hk), zero_mul]
      rw [hx']
      exact Submodule.sum_mem _ fun i _ => Submodule.smul_mem _ _ (Submodule.subset_span ⟨i, rfl⟩)

/-! ### Linear systems -/

theorem foldl_acc (f : ℕ → ZMod 2) (g : ℕ → ZMod 2) : ∀ (l : List ℕ) (acc : ZMod 2),
    l.foldl (fun acc k => if f k = 1 then acc + g k else acc) acc = acc + (l.map fun k => f k * g k).sum
  | [], acc => by simp
  | k :: l, acc => by
    rw [List.foldl_cons, foldl_acc f g l, List.map_cons, List.sum_cons]
    rcases zmod2_cases (f k) with h | h
    · rw [h, if_neg zero_ne_one, zero_mul, zero_add]
    · rw [h, if_pos rfl, one_mul, add_assoc]

theorem list_sum_range' (f : ℕ → ZMod 2) (s n : ℕ) (hs : s ≤ n) (h0 : ∀ l, l < s → f l = 0) :
    ((List.range' s (n - s)).map f).sum = ∑ l ∈ Finset.range n, f l := by
  obtain ⟨d, rfl⟩ := Nat.exists_eq_add_of_le hs
  rw [Finset.sum_range_add, Finset.sum_eq_zero (s := Finset.range s) (fun l hl => h0 l (Finset.mem_range.1 hl)),
    zero_add, Nat.add_sub_cancel_left, List.range'_eq_map_range, List.map_map]
  rw [Finset.sum_range, ← List.sum_ofFn, List.ofFn_eq_map]
  congr 1
  rw [← List.map_coe_finRange_eq_range, List.map_map]
  rfl

theorem Echelon.firstZeroRow {full : Bool} {m N : ℕ} {a : GF2} {p : ℕ} {piv : ℕ → ℕ} (h : Echelon full m N a p piv) :
    firstZeroRow a m N = p := by
  unfold GF2.firstZeroRow
  have hle := h.le
  rcases Nat.eq_or_lt_of_le hle with rfl | hlt
  · rw [List.find?_eq_none.2]
    · rfl
    · intro r hr
      have := (h.rowAny r (List.mem_range.1 hr)).2 (List.mem_range.1 hr)
      simp [this]
  · rw [(List.find?_eq_some_iff_getElem (b := p)).2]
    · rfl
    · refine ⟨?_, p, by simpa using hlt, by simp, fun j hj => ?_⟩
      · have := h.rowAny p hlt
        simpa using this
      · have := (h.rowAny j (by omega)).2 hj
        simp [this]

theorem backSubst_append (a : GF2) (n : ℕ) (b : ℕ → ZMod 2) : ∀ (l l' : List ℕ) (x : ℕ → ZMod 2),
    backSubst a n b (l ++ l') x = (backSubst a n b l x).bind (backSubst a n b l')
  | [], l', x => rfl
  | i :: l, l', x => by
    simp only [List.cons_append, backSubst]
    cases leading a n i with
    | none => rfl
    | some j => exact backSubst_append a n b l l' _

/-- Back substitution solves a system in echelon form whose zero rows have zero right-hand sides. -/
theorem Echelon.solve_spec {m n : ℕ} {a : GF2} {b : ℕ → ZMod 2} {p : ℕ} {piv : ℕ → ℕ} (he : Echelon false m n a p piv)
    (hb0 : ∀ r, p ≤ r → r < m → b r = 0) :
    ∃ x, solve m n a b = some x ∧ ∀ r, r < m → ∑ l ∈ Finset.range n, a r l * x l = b r := by
  -- invariant of back substitution
  have key : ∀ k, k ≤ p → ∃ x, backSubst a n b ((List.range p).reverse.take k) (fun _ => 0) = some x ∧
      (∀ r, p - k ≤ r → r < p → ∑ l ∈ Finset.range n, a r l * x l = b r) ∧
      (∀ r, r < p - k → x (piv r) = 0) := by
    intro k
    induction k with
    | zero => intro _; exact ⟨_, rfl, fun r h1 h2 => by omega, fun _ _ => rfl⟩
    | succ k ih =>
      intro hk
      obtain ⟨x, h1, h2, h3⟩ := ih (by omega)
      have hget : (List.range p).reverse.take (k + 1) = (List.range p).reverse.take k ++ [p - 1 - k] := by
        rw [List.take_succ_eq_append_getElem (by simp; omega)]
        congr 2
        simp
      have hi : p - 1 - k < p := by omega
      have hm : p - 1 - k < m := by have := he.le; omega
      have hlead := leading_some_of (he.lt _ hi) (he.one _ hi) (he.lead _ hi)
      set i := p - 1 - k with hidef
      refine ⟨backStep a n b x i (piv i), ?_, ?_, ?_⟩
      · rw [hget, backSubst_append, h1]
        simp [backSubst, hlead]
      · intro r hr1 hr2
        have hsum : ∀ r', ∑ l ∈ Finset.range n, a r' l * (backStep a n b x i (piv i)) l =
            ∑ l ∈ Finset.range n, a r' l * x l + a r' (piv i) * (backStep a n b x i (piv i) (piv i) + x (piv i)) := by
          intro r'
          have e : ∀ l ∈ Finset.range n, a r' l * (backStep a n b x i (piv i)) l = a r' l * x l +
              (if l = piv i then a r' (piv i) * (backStep a n b x i (piv i) (piv i) + x (piv i)) else 0) := by
            intro l _
            by_cases hl : l = piv i
            · subst hl
              rw [if_pos rfl]
              have := zmod2_add_self (x (piv i))
              linear_combination (-1) * (a r' (piv i)) * this
            · rw [if_neg hl, add_zero]
              unfold backStep
              rw [Function.update_of_ne hl]
          rw [Finset.sum_congr rfl e, Finset.sum_add_distrib, Finset.sum_ite_eq', if_pos (Finset.mem_range.2 (he.lt _ hi))]
        rw [hsum]
        by_cases hri : r = i
        · subst hri
          rw [he.one _ hi, one_mul, h3 _ (by omega), add_zero]
          unfold backStep
          rw [Function.update_self, foldl_acc, zero_add,
            list_sum_range' (fun l => a i l * x l) (piv i) n (le_of_lt (he.lt _ hi))
              (fun l hl => by rw [he.lead _ hi l hl, zero_mul])]
          have := zmod2_add_self (∑ l ∈ Finset.range n, a i l * x l)
          linear_combination this
        · have hgt : i < r := by omega
          rw [he.lead r hr2 _ (he.mono i r hgt hr2), zero_mul, add_zero]
          exact h2 r (by omega) hr2
      · intro r hr
        unfold backStep
        rw [Function.update_of_ne]
        · exact h3 r (by omega)
        · have := he.mono r i (by omega) hi; omega
  obtain ⟨x, h1, h2, -⟩ := key p (le_refl _)
  rw [List.take_of_length_le (by simp)] at h1
  refine ⟨x, ?_, ?_⟩
  · unfold solve
    rw [he.firstZeroRow]
    exact h1
  · intro r hr'
    by_cases hr : r < p
    · exact h2 r (by omega) hr
    · rw [hb0 r (by omega) hr']
      exact Finset.sum_eq_zero fun l hl => by rw [he.zero r (by omega) hr' l (Finset.mem_range.1 hl), zero_mul]

/-- **C25** On a system `A·x = b` whose matrix is in row-echelon form and that is consistent,
`solve_f2_linear_system` returns a solution. -/
theorem C25_solve (m n : ℕ) (a : GF2) (b : ℕ → ZMod 2) (p : ℕ) (piv : ℕ → ℕ) (he : Echelon false m n a p piv)
    (hcons : ∃ y : Fin n → ZMod 2, (toMat m n a).mulVec y = fun i : Fin m => b i) :
    ∃ x, solve m n a b = some x ∧ (toMat m n a).mulVec (fun j => x j) = fun i : Fin m => b i := by
  have hb0 : ∀ r, p ≤ r → r < m → b r = 0 := by
    obtain ⟨y, hy⟩ := hcons
    intro r h1 h2
    have := congrFun hy ⟨r, h2⟩
    simp only [] at this
    rw [← this]
    unfold Matrix.mulVec dotProduct
    exact Finset.sum_eq_zero fun l _ => by
      have h0 : toMat m n a ⟨r, h2⟩ l = 0 := he.zero r h1 h2 l l.2
      simp only []; rw [h0, zero_mul]
  obtain ⟨x, h1, h2⟩ := he.solve_spec hb0
  refine ⟨x, h1, ?_⟩
  funext r
  rw [← h2 r r.2, Finset.sum_range]
  rfl

/-- The hypotheses of `C25_solve` hold for every system obtained by eliminating any matrix, with any image as
right-hand side. -/
example (m n : ℕ) (a : GF2) (y : Fin n → ZMod 2) : ∃ x, solve m n (elimination false m n a)
    (fun i => if h : i < m then (toMat m n (elimination false m n a)).mulVec y ⟨i, h⟩ else 0) = some x := by
  obtain ⟨⟨p, piv, he⟩, -⟩ := C23_elimination false m n n a
  obtain ⟨x, h, -⟩ := C25_solve m n _ (fun i => if h : i < m then
    (toMat m n (elimination false m n a)).mulVec y ⟨i, h⟩ else 0) p piv he ⟨y, by funext i; simp⟩
  exact ⟨x, h⟩

theorem matMulLoop_apply (a b : GF2) (i j : ℕ) : ∀ (order : List (ℕ × ℕ)) (res : GF2),
    order.foldl (fun res (ik : ℕ × ℕ) => if a ik.1 ik.2 = 1 then
      fun r j => if r = ik.1 then res ik.1 j + b ik.2 j else res r j else res) res i j =
    res i j + (order.map fun ik => if ik.1 = i then a i ik.2 * b ik.2 j else 0).sum
  | [], res => by simp
  | (i', k) :: order, res => by
    rw [List.foldl_cons, matMulLoop_apply a b i j order, List.map_cons, List.sum_cons, ← add_assoc]
    congr 1
    rcases zmod2_cases (a i' k) with h | h
    · simp only [h, zero_ne_one, if_false]
      by_cases hi : i' = i
      · subst hi; simp [h]
      · simp [hi]
    · simp only [h, if_true]
      by_cases hi : i' = i
      · subst hi; simp [h]
      · simp [hi, Ne.symm hi]

/-- **C25** `mat_mul` is the matrix product modulo 2, in whatever order the parallel loops run; matrices of
incompatible shapes raise `ValueError`. -/
theorem C25_mat_mul (m l l' n : ℕ) (a b : GF2) (order : List (ℕ × ℕ))
    (horder : order.Perm ((List.range m).product (List.range l))) :
    (l ≠ l' → matMul order l l' a b = none) ∧
    (l = l' → ∃ c, matMul order l l' a b = some c ∧ toMat m n c = toMat m l a * toMat l n b) := by
  constructor
  · intro h; simp [matMul, h]
  · intro h
    refine ⟨matMulLoop order a b, by simp [matMul, h], ?_⟩
    ext i j
    rw [Matrix.mul_apply]
    simp only [toMat, Matrix.of_apply]
    unfold matMulLoop
    have hnd : ((List.range m).product (List.range l)).Nodup := List.nodup_range.product List.nodup_range
    have hset : ((List.range m).product (List.range l)).toFinset = Finset.range m ×ˢ Finset.range l := by
      ext ⟨x, y⟩; simp [List.mem_product]
    rw [matMulLoop_apply, zero_add, (horder.map _).sum_eq, ← List.sum_toFinset _ hnd, hset, Finset.sum_product,
      Finset.sum_eq_single_of_mem (i : ℕ) (Finset.mem_range.2 i.2), Finset.sum_range]
    · simp
    · intro k _ hk; simp [hk]

end GF2
end Graphix
