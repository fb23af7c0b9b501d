import Verif.Model.Linalg
import Verif.Spec.Linalg
import Mathlib.Algebra.BigOperators.Group.Finset.Basic
import Mathlib.Algebra.BigOperators.Ring.Finset
import Mathlib.LinearAlgebra.Matrix.Rank
import Mathlib.Tactic.Ring
import Mathlib.Data.ZMod.Basic
import Mathlib.Algebra.CharP.Two

/-! # Proofs about Gaussian elimination over GF(2) -/

namespace Graphix
namespace GF2

theorem zmod2_ne_one {x : ZMod 2} : x ≠ 1 ↔ x = 0 := by revert x; decide
theorem zmod2_ne_zero {x : ZMod 2} : x ≠ 0 ↔ x = 1 := by revert x; decide
theorem zmod2_add_self (x : ZMod 2) : x + x = 0 := by revert x; decide
theorem zmod2_cases (x : ZMod 2) : x = 0 ∨ x = 1 := by revert x; decide

/-- Every row of `a'` is a combination of the rows of `a`. -/
def RowComb (m : ℕ) (a a' : GF2) : Prop :=
  ∀ r, r < m → ∃ u : ℕ → ZMod 2, ∀ l, a' r l = ∑ k ∈ Finset.range m, u k * a k l

theorem RowComb.of_eq {m : ℕ} {a a' : GF2} (h : ∀ r, r < m → a' r = a r) : RowComb m a a' := by
  intro r hr
  refine ⟨fun k => if k = r then 1 else 0, fun l => ?_⟩
  simp [ite_mul, Finset.sum_ite_eq', hr, h r hr]

theorem RowComb.refl (m : ℕ) (a : GF2) : RowComb m a a := RowComb.of_eq (fun _ _ => rfl)

theorem RowComb.trans {m : ℕ} {a b c : GF2} (h1 : RowComb m a b) (h2 : RowComb m b c) : RowComb m a c := by
  intro r hr
  obtain ⟨v, hv⟩ := h2 r hr
  choose! u hu using h1
  refine ⟨fun k => ∑ s ∈ Finset.range m, v s * u s k, fun l => ?_⟩
  rw [hv]
  have : ∀ s ∈ Finset.range m, v s * b s l = ∑ k ∈ Finset.range m, v s * (u s k * a k l) := by
    intro s hs
    rw [hu s (Finset.mem_range.1 hs), Finset.mul_sum]
  rw [Finset.sum_congr rfl this, Finset.sum_comm]
  refine Finset.sum_congr rfl fun k _ => ?_
  rw [Finset.sum_mul]
  exact Finset.sum_congr rfl fun s _ => (mul_assoc _ _ _).symm

/-- The two matrices have the same row space. -/
def RowEquiv (m : ℕ) (a a' : GF2) : Prop := RowComb m a a' ∧ RowComb m a' a

theorem RowEquiv.refl (m : ℕ) (a : GF2) : RowEquiv m a a := ⟨RowComb.refl m a, RowComb.refl m a⟩
theorem RowEquiv.trans {m : ℕ} {a b c : GF2} (h1 : RowEquiv m a b) (h2 : RowEquiv m b c) : RowEquiv m a c :=
  ⟨h1.1.trans h2.1, h2.2.trans h1.2⟩

theorem swapRows_swapRows (a : GF2) (i p : ℕ) : (a.swapRows i p).swapRows i p = a := by
  funext r
  unfold swapRows
  by_cases h1 : r = i
  · subst h1; by_cases h2 : p = r <;> simp [h2]
  · by_cases h2 : r = p
    · subst h2; simp [h1]
    · simp [h1, h2]

theorem swapRows_comb (a : GF2) {m i p : ℕ} (hi : i < m) (hp : p < m) : RowComb m a (a.swapRows i p) := by
  intro r hr
  refine ⟨fun k => if k = (if r = i then p else if r = p then i else r) then 1 else 0, fun l => ?_⟩
  rw [Finset.sum_congr rfl (fun k _ => ite_mul _ _ _ _)]
  simp only [one_mul, zero_mul, Finset.sum_ite_eq', Finset.mem_range]
  by_cases h1 : r = i
  · simp [swapRows, h1, hp]
  · by_cases h2 : r = p
    · subst h2; simp [swapRows, h1, hi]
    · simp [swapRows, h1, h2, hr]

theorem swapRows_equiv (a : GF2) {m i p : ℕ} (hi : i < m) (hp : p < m) : RowEquiv m a (a.swapRows i p) := by
  refine ⟨swapRows_comb a hi hp, ?_⟩
  have := swapRows_comb (a.swapRows i p) hi hp
  rwa [swapRows_swapRows] at this

theorem addRow_addRow (a : GF2) {k p : ℕ} (h : k ≠ p) : (a.addRow k p).addRow k p = a := by
  funext r l
  unfold addRow
  by_cases h1 : r = k
  · subst h1
    have hp : p ≠ r := Ne.symm h
    simp [hp, add_assoc, zmod2_add_self]
  · simp [h1]

theorem addRow_comb (a : GF2) {m k p : ℕ} (hk : k < m) (hp : p < m) : RowComb m a (a.addRow k p) := by
  intro r hr
  by_cases h1 : r = k
  · refine ⟨fun s => (if s = k then 1 else 0) + (if s = p then 1 else 0), fun l => ?_⟩
    simp [addRow, h1, add_mul, Finset.sum_add_distrib, ite_mul, Finset.sum_ite_eq', hk, hp]
  · refine ⟨fun s => if s = r then 1 else 0, fun l => ?_⟩
    simp [addRow, h1, ite_mul, Finset.sum_ite_eq', hr]

theorem addRow_equiv (a : GF2) {m k p : ℕ} (h : k ≠ p) (hk : k < m) (hp : p < m) : RowEquiv m a (a.addRow k p) := by
  refine ⟨addRow_comb a hk hp, ?_⟩
  have := addRow_comb (a.addRow k p) hk hp
  rwa [addRow_addRow a h] at this

/-- The loop eliminating column `j`. -/
theorem elimFold (p j : ℕ) : ∀ (ks : List ℕ), ks.Nodup → ∀ a : GF2,
    ks.foldl (fun a k => if a k j = 1 ∧ k ≠ p then a.addRow k p else a) a =
      fun r l => if r ∈ ks ∧ a r j = 1 ∧ r ≠ p then a r l + a p l else a r l
  | [], _, a => by simp
  | k :: ks, h, a => by
    obtain ⟨h1, h2⟩ := List.nodup_cons.1 h
    rw [List.foldl_cons, elimFold p j ks h2]
    funext r l
    by_cases hc : a k j = 1 ∧ k ≠ p
    · rw [if_pos hc]
      have hp : p ≠ k := Ne.symm hc.2
      by_cases hr : r = k
      · subst hr; simp [h1, addRow, hc]
      · simp [addRow, hr, hp]
    · rw [if_neg hc]
      by_cases hr : r = k
      · subst hr
        rw [if_neg (by simp [h1]), if_neg (by tauto)]
      · simp [hr]

theorem elimFold_equiv {m p j : ℕ} (hp : p < m) : ∀ (ks : List ℕ), (∀ k ∈ ks, k < m) → ∀ a : GF2,
    RowEquiv m a (ks.foldl (fun a k => if a k j = 1 ∧ k ≠ p then a.addRow k p else a) a)
  | [], _, a => RowEquiv.refl m a
  | k :: ks, h, a => by
    rw [List.foldl_cons]
    refine RowEquiv.trans ?_ (elimFold_equiv hp ks (fun k hk => h k (List.mem_cons_of_mem _ hk)) _)
    by_cases hc : a k j = 1 ∧ k ≠ p
    · rw [if_pos hc]; exact addRow_equiv a hc.2 (h k List.mem_cons_self) hp
    · rw [if_neg hc]; exact RowEquiv.refl m a

theorem eliminate_eq (full : Bool) (m p j : ℕ) (a : GF2) :
    eliminate full m p j a =
      ((if full then List.range m else List.range' (p + 1) (m - (p + 1))).foldl
        (fun a k => if a k j = 1 ∧ k ≠ p then a.addRow k p else a) a) := by
  cases full with
  | true => simp [eliminate]
  | false =>
    simp only [eliminate, Bool.false_eq_true, if_false]
    have : ∀ (ks : List ℕ), (∀ k ∈ ks, k ≠ p) → ∀ a : GF2,
        ks.foldl (fun a k => if a k j = 1 then a.addRow k p else a) a =
        ks.foldl (fun a k => if a k j = 1 ∧ k ≠ p then a.addRow k p else a) a := by
      intro ks
      induction ks with
      | nil => intro _ _; rfl
      | cons k ks ih =>
        intro h a
        rw [List.foldl_cons, List.foldl_cons, ih (fun k hk => h k (List.mem_cons_of_mem _ hk))]
        simp [h k List.mem_cons_self]
    apply this
    intro k hk
    rw [List.mem_range'_1] at hk
    omega

theorem eliminate_equiv (full : Bool) {m p j : ℕ} (hp : p < m) (a : GF2) :
    RowEquiv m a (eliminate full m p j a) := by
  rw [eliminate_eq]
  apply elimFold_equiv hp
  intro k hk
  cases full
  · simp only [Bool.false_eq_true, if_false, List.mem_range'_1] at hk; omega
  · simpa using hk

theorem eliminate_apply (full : Bool) {m p j : ℕ} (a : GF2) (r l : ℕ) (hr : r < m) :
    eliminate full m p j a r l = if (full = true ∨ p < r) ∧ a r j = 1 ∧ r ≠ p then a r l + a p l else a r l := by
  rw [eliminate_eq, elimFold]
  · cases full
    · simp only [Bool.false_eq_true, if_false, List.mem_range'_1, false_or]
      congr 1
      apply propext
      constructor <;> (intro h; refine ⟨by omega, h.2⟩)
    · simp [hr]
  · cases full
    · exact List.nodup_range'
    · exact List.nodup_range

theorem Echelon.extend {full : Bool} {m N : ℕ} {a : GF2} {p : ℕ} {piv : ℕ → ℕ} (h : Echelon full m N a p piv)
    (hz : ∀ r, p ≤ r → r < m → a r N = 0) : Echelon full m (N + 1) a p piv :=
  { h with
    lt := fun r hr => by have := h.lt r hr; omega
    zero := fun r h1 h2 l hl => by
      rcases Nat.lt_succ_iff_lt_or_eq.1 hl with h' | rfl
      · exact h.zero r h1 h2 l h'
      · exact hz r h1 h2 }

theorem Echelon.full_rows {full : Bool} {m N N' : ℕ} {a : GF2} {piv : ℕ → ℕ} (h : Echelon full m N a m piv)
    (hN : N ≤ N') : Echelon full m N' a m piv :=
  { h with
    lt := fun r hr => by have := h.lt r hr; omega
    zero := fun r h1 h2 => by omega }

theorem findPivot_some {a : GF2} {m p j i : ℕ} (h : findPivot a m p j = some i) : p ≤ i ∧ i < m ∧ a i j = 1 := by
  have h1 := List.find?_some h
  have h2 := List.mem_of_find?_eq_some h
  rw [List.mem_range'_1] at h2
  simp only [decide_eq_true_eq] at h1
  exact ⟨h2.1, by omega, h1⟩

theorem findPivot_none {a : GF2} {m p j : ℕ} (h : findPivot a m p j = none) : ∀ r, p ≤ r → r < m → a r j = 0 := by
  intro r h1 h2
  unfold findPivot at h
  rw [List.find?_eq_none] at h
  have := h r (by rw [List.mem_range'_1]; omega)
  simp only [decide_eq_true_eq] at this
  exact zmod2_ne_one.1 this

theorem Echelon.step {full : Bool} {m j : ℕ} {a : GF2} {p : ℕ} {piv : ℕ → ℕ} (h : Echelon full m j a p piv)
    {i : ℕ} (hi : findPivot a m p j = some i) :
    Echelon full m (j + 1) (eliminate full m p j (if i ≠ p then a.swapRows i p else a)) (p + 1)
      (Function.update piv p j) := by
  obtain ⟨hpi, him, h1⟩ := findPivot_some hi
  set b := (if i ≠ p then a.swapRows i p else a) with hb
  have hpm : p < m := by omega
  -- facts about `b`
  have hbr : ∀ r, r < p → b r = a r := by
    intro r hr
    rw [hb]
    split
    · unfold swapRows; rw [if_neg (by omega), if_neg (by omega)]
    · rfl
  have hbp : b p j = 1 := by
    rw [hb]
    split
    · rename_i hne; unfold swapRows; rw [if_neg (Ne.symm hne), if_pos rfl]; exact h1
    · rename_i hne; have : i = p := by omega
      rw [← this]; exact h1
  have hbz : ∀ r, p ≤ r → r < m → ∀ l, l < j → b r l = 0 := by
    intro r hr1 hr2 l hl
    rw [hb]
    split
    · unfold swapRows
      split
      · exact h.zero p (le_refl _) hpm l hl
      · split
        · exact h.zero i hpi him l hl
        · exact h.zero r hr1 hr2 l hl
    · exact h.zero r hr1 hr2 l hl
  have hlow : ∀ r, r < m → ∀ l, l < j → eliminate full m p j b r l = b r l := by
    intro r hr l hl
    rw [eliminate_apply full b r l hr]
    split
    · rw [hbz p (le_refl _) hpm l hl, add_zero]
    · rfl
  have hrow : ∀ r, r < m → (r = p ∨ (full = false ∧ r < p)) → ∀ l, eliminate full m p j b r l = b r l := by
    intro r hr hc l
    rw [eliminate_apply full b r l hr, if_neg]
    rintro ⟨h1, -, h3⟩
    rcases hc with rfl | ⟨h4, h5⟩
    · exact h3 rfl
    · rw [h4] at h1; rcases h1 with h1 | h1
      · cases h1
      · omega
  refine ⟨hpm, ?_, ?_, ?_, ?_, ?_, ?_⟩
  · intro r hr
    by_cases hrp : r = p
    · subst hrp; simp
    · rw [Function.update_of_ne hrp]; have := h.lt r (by omega); omega
  · intro r hr
    by_cases hrp : r = p
    · subst hrp; rw [Function.update_self, hrow r hpm (Or.inl rfl), hbp]
    · have hr' : r < p := by omega
      rw [Function.update_of_ne hrp, hlow r (by omega) _ (h.lt r hr'), hbr r hr', h.one r hr']
  · intro r hr l hl
    by_cases hrp : r = p
    · subst hrp; rw [Function.update_self] at hl; rw [hlow r hpm l hl, hbz r (le_refl _) hpm l hl]
    · have hr' : r < p := by omega
      rw [Function.update_of_ne hrp] at hl
      rw [hlow r (by omega) _ (by have := h.lt r hr'; omega), hbr r hr', h.lead r hr' l hl]
  · intro r s hrs hs
    by_cases hsp : s = p
    · subst hsp; rw [Function.update_self, Function.update_of_ne (by omega)]; exact h.lt r hrs
    · rw [Function.update_of_ne hsp, Function.update_of_ne (by omega)]; exact h.mono r s hrs (by omega)
  · intro r hr1 hr2 l hl
    rcases Nat.lt_succ_iff_lt_or_eq.1 hl with h' | rfl
    · rw [hlow r hr2 l h']; exact hbz r (by omega) hr2 l h'
    · rw [eliminate_apply full b r l hr2]
      rcases zmod2_cases (b r l) with h0 | h0
      · rw [if_neg (by rw [h0]; simp), h0]
      · rw [if_pos ⟨Or.inr (by omega), h0, by omega⟩, h0, hbp]; rfl
  · intro hf r s hr hs hne
    by_cases hsp : s = p
    · subst hsp
      rw [Function.update_self, eliminate_apply full b r j hr]
      rcases zmod2_cases (b r j) with h0 | h0
      · rw [if_neg (by rw [h0]; simp), h0]
      · rw [if_pos ⟨Or.inl hf, h0, hne⟩, h0, hbp]; rfl
    · have hs' : s < p := by omega
      rw [Function.update_of_ne hsp, hlow r hr _ (h.lt s hs')]
      by_cases hrp : r < p
      · rw [hbr r hrp]; exact h.reduced hf r s hr hs' hne
      · exact hbz r (by omega) hr _ (h.lt s hs')

theorem elimLoop_spec (full : Bool) (m : ℕ) : ∀ (d j p : ℕ) (a : GF2) (piv : ℕ → ℕ), Echelon full m j a p piv →
    (∃ p' piv', Echelon full m (j + d) (elimLoop full m (List.range' j d) p a) p' piv') ∧
      RowEquiv m a (elimLoop full m (List.range' j d) p a)
  | 0, j, p, a, piv, h => ⟨⟨p, piv, by simpa [elimLoop] using h⟩, RowEquiv.refl m a⟩
  | d + 1, j, p, a, piv, h => by
    rw [List.range'_succ]
    unfold elimLoop
    cases hf : findPivot a m p j with
    | none =>
      have := elimLoop_spec full m d (j + 1) p a piv (h.extend (findPivot_none hf))
      rw [show j + 1 + d = j + (d + 1) by omega] at this
      exact this
    | some i =>
      obtain ⟨hpi, him, -⟩ := findPivot_some hf
      have hst := h.step hf
      have heq : RowEquiv m a (eliminate full m p j (if i ≠ p then a.swapRows i p else a)) := by
        refine RowEquiv.trans ?_ (eliminate_equiv full (by omega) _)
        split
        · exact swapRows_equiv a him (by omega)
        · exact RowEquiv.refl m a
      simp only []
      split
      · rename_i hpm
        rw [hpm] at hst
        exact ⟨⟨m, _, hst.full_rows (by omega)⟩, heq⟩
      · have := elimLoop_spec full m d (j + 1) (p + 1) _ _ hst
        rw [show j + 1 + d = j + (d + 1) by omega] at this
        exact ⟨this.1, heq.trans this.2⟩

theorem elimination_spec (full : Bool) (m ncols : ℕ) (a : GF2) :
    (∃ p piv, Echelon full m ncols (elimination full m ncols a) p piv) ∧
      RowEquiv m a (elimination full m ncols a) := by
  have h0 : Echelon full m 0 a 0 (fun _ => 0) :=
    ⟨Nat.zero_le _, by simp, by simp, by simp, by simp, by simp, by simp⟩
  have := elimLoop_spec full m ncols 0 0 a _ h0
  rw [zero_add, ← List.range_eq_range'] at this
  exact this

theorem rowAny_iff (a : GF2) (n r : ℕ) : a.rowAny n r = true ↔ ∃ l, l < n ∧ a r l = 1 := by
  simp [rowAny, List.any_eq_true]

theorem Echelon.rowAny {full : Bool} {m N : ℕ} {a : GF2} {p : ℕ} {piv : ℕ → ℕ} (h : Echelon full m N a p piv)
    (r : ℕ) (hr : r < m) : a.rowAny N r = true ↔ r < p := by
  rw [rowAny_iff]
  constructor
  · rintro ⟨l, hl, h1⟩
    by_contra hp
    rw [h.zero r (by omega) hr l hl] at h1
    exact zero_ne_one h1
  · intro hp
    exact ⟨piv r, h.lt r hp, h.one r hp⟩

theorem Echelon.count {full : Bool} {m N : ℕ} {a : GF2} {p : ℕ} {piv : ℕ → ℕ} (h : Echelon full m N a p piv) :
    a.countNonzeroRows m N = p := by
  unfold countNonzeroRows
  have : (List.range m).filter (fun r => a.rowAny N r) = (List.range m).filter (fun r => decide (r < p)) := by
    apply List.filter_congr
    intro r hr
    rw [Bool.eq_iff_iff, h.rowAny r (List.mem_range.1 hr)]
    simp
  rw [this]
  have hle := h.le
  clear this
  obtain ⟨d, rfl⟩ := Nat.exists_eq_add_of_le hle
  rw [List.range_add, List.filter_append, List.filter_eq_self.2 (by simp), List.filter_eq_nil_iff.2 (by simp)]
  simp

/-- Combination of the rows of a matrix in echelon form that vanishes on the first `N` columns only involves
the zero rows. -/
theorem Echelon.indep {full : Bool} {m N : ℕ} {a : GF2} {p : ℕ} {piv : ℕ → ℕ} (h : Echelon full m N a p piv)
    (y : ℕ → ZMod 2) (hy : ∀ l, l < N → ∑ k ∈ Finset.range m, y k * a k l = 0) : ∀ r, r < p → y r = 0 := by
  intro r
  induction r using Nat.strong_induction_on with
  | _ r ih =>
    intro hr
    have := hy (piv r) (h.lt r hr)
    rw [Finset.sum_eq_single_of_mem r (Finset.mem_range.2 (by have := h.le; omega))] at this
    · rwa [h.one r hr, mul_one] at this
    · intro k hk hkr
      rw [Finset.mem_range] at hk
      rcases lt_trichotomy k r with hlt | heq | hgt
      · rw [ih k hlt (by omega), zero_mul]
      · exact absurd heq hkr
      · by_cases hkp : k < p
        · rw [h.lead k hkp _ (h.mono r k hgt hkp), mul_zero]
        · rw [h.zero k (by omega) hk _ (h.lt r hr), mul_zero]

end GF2
end Graphix
