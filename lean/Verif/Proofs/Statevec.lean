import Verif.Model.Statevec
import Verif.Spec.Register
import Verif.Proofs.Measurement
import Mathlib.Data.List.Range
import Mathlib.Algebra.BigOperators.Intervals
import Mathlib.Data.Nat.Bitwise

/-!
# The state-vector kernels compute the operators
-/

namespace Graphix

open Function

/-! ### Two-point updates -/

/-- The index is in the lower half of its block. -/
def Low (h i : ℕ) : Prop := (i / h) % 2 = 0

theorem Low.ne_add {h i j : ℕ} (hh : 0 < h) (hi : Low h i) (hj : Low h j) : i ≠ j + h := by
  rintro rfl
  unfold Low at hi hj
  rw [Nat.add_div_right _ hh] at hi
  omega

/-- The effect of the pair updates at the indices of `L` (each with its partner `+h`). -/
theorem foldl_pairs (op : Mat2) {h : ℕ} (hh : 0 < h) (L : List ℕ) : ∀ (psi : Buf), L.Nodup →
    (∀ i ∈ L, Low h i) → ∀ m,
    (L.foldl (fun psi i => computeOpPsi op i 0 h psi) psi) m =
      if m ∈ L then op false false * psi m + op false true * psi (m + h)
      else if h ≤ m ∧ m - h ∈ L then op true false * psi (m - h) + op true true * psi m
      else psi m := by
  induction L with
  | nil => intro psi _ _ m; simp
  | cons i L ih =>
    intro psi hnd hlow m
    rw [List.nodup_cons] at hnd
    have hl := hlow i (by simp)
    rw [List.foldl_cons, ih _ hnd.2 (fun j hj => hlow j (by simp [hj]))]
    have val : ∀ x, computeOpPsi op i 0 h psi x =
        if x = i + h then op true false * psi i + op true true * psi (i + h)
        else if x = i then op false false * psi i + op false true * psi (i + h) else psi x := by
      intro x
      unfold computeOpPsi
      simp only [add_zero]
      by_cases h1 : x = i + h
      · subst h1; simp
      · by_cases h2 : x = i
        · subst h2; rw [update_of_ne h1, update_self, if_neg h1, if_pos rfl]
        · simp [h1, h2]
    have hne : i ≠ i + h := by omega
    by_cases hm : m ∈ L
    · have hml := hlow m (by simp [hm])
      have e1 : m ≠ i := by rintro rfl; exact hnd.1 hm
      have e2 : m ≠ i + h := hml.ne_add hh hl
      have e3 : m + h ≠ i + h := by omega
      have e4 : m + h ≠ i := (hl.ne_add hh hml).symm
      rw [if_pos hm, if_pos (by simp [hm]), val, val, if_neg e2, if_neg e1, if_neg e3, if_neg e4]
    · rw [if_neg hm]
      by_cases hm2 : h ≤ m ∧ m - h ∈ L
      · have hml := hlow (m - h) (by simp [hm2.2])
        have e0 : m = (m - h) + h := by omega
        have e1 : m ≠ i := by rw [e0]; exact (hl.ne_add hh hml).symm
        have e2 : m - h ≠ i := by rintro rfl; exact hnd.1 hm2.2
        have e3 : m ≠ i + h := by omega
        have e4 : m - h ≠ i + h := hml.ne_add hh hl
        rw [if_pos hm2, val, val, if_neg e4, if_neg e2, if_neg e3, if_neg e1,
          if_neg (by simp [hm, e1]), if_pos ⟨hm2.1, by simp [hm2.2]⟩]
      · rw [if_neg hm2, val]
        by_cases e1 : m = i + h
        · subst e1
          rw [if_pos rfl, if_neg (by simp [hm]; omega), if_pos ⟨by omega, by simp⟩]
          simp
        · rw [if_neg e1]
          by_cases e2 : m = i
          · subst e2; rw [if_pos rfl, if_pos (by simp)]
          · rw [if_neg e2, if_neg (by simp [hm, e2])]
            rw [if_neg]
            rintro ⟨h1, h2⟩
            rcases List.mem_cons.1 h2 with h2 | h2
            · omega
            · exact hm2 ⟨h1, h2⟩

/-! ### The index lists of the loops -/

/-- The lower index of iteration `(b, j)`. -/
def pairIdx (nqubit q : ℕ) (bj : ℕ × ℕ) : ℕ := 2 ^ (nqubit - q) * bj.1 + bj.2

theorem pow_half {nqubit q : ℕ} (hq : q < nqubit) : 2 ^ (nqubit - q) / 2 = 2 ^ (nqubit - 1 - q) := by
  rw [show nqubit - q = (nqubit - 1 - q) + 1 by omega, pow_succ]; simp

theorem pow_block {nqubit q : ℕ} (hq : q < nqubit) : 2 ^ (nqubit - q) = 2 * 2 ^ (nqubit - 1 - q) := by
  rw [show nqubit - q = (nqubit - 1 - q) + 1 by omega, pow_succ]; ring

theorem mem_blockPairs {nqubit q b j : ℕ} (hq : q < nqubit) :
    (b, j) ∈ blockPairs nqubit q ↔ b < 2 ^ q ∧ j < 2 ^ (nqubit - 1 - q) := by
  unfold blockPairs
  rw [pow_half hq]
  simp [List.mem_flatMap]

theorem nodup_blockPairs (nqubit q : ℕ) : (blockPairs nqubit q).Nodup := by
  unfold blockPairs
  rw [List.nodup_flatMap]
  refine ⟨fun b _ => List.nodup_range.map (fun x y h => by simpa using h), ?_⟩
  refine List.nodup_range.imp ?_ |>.imp (fun h => h)
  intro a b hab
  simp only [Function.onFun, List.disjoint_left, List.mem_map]
  rintro x ⟨j, -, rfl⟩ ⟨k, -, h⟩
  simp at h; exact hab h.1.symm

theorem pairIdx_low {nqubit q b j : ℕ} (hq : q < nqubit) (hj : j < 2 ^ (nqubit - 1 - q)) :
    Low (2 ^ (nqubit - 1 - q)) (pairIdx nqubit q (b, j)) := by
  unfold Low pairIdx
  rw [pow_block hq]
  have : (2 * 2 ^ (nqubit - 1 - q) * b + j) / 2 ^ (nqubit - 1 - q) = 2 * b := by
    rw [show 2 * 2 ^ (nqubit - 1 - q) * b + j = j + (2 * b) * 2 ^ (nqubit - 1 - q) by ring,
      Nat.add_mul_div_right _ _ (by positivity), Nat.div_eq_of_lt hj]; omega
  rw [this]; omega

theorem pairIdx_inj {nqubit q b j b' j' : ℕ} (hq : q < nqubit) (hj : j < 2 ^ (nqubit - 1 - q))
    (hj' : j' < 2 ^ (nqubit - 1 - q)) (h : pairIdx nqubit q (b, j) = pairIdx nqubit q (b', j')) :
    b = b' ∧ j = j' := by
  unfold pairIdx at h
  have hp : 0 < 2 ^ (nqubit - q) := by positivity
  have hb := pow_block hq
  have h1 : (2 ^ (nqubit - q) * b + j) / 2 ^ (nqubit - q) = b := by
    rw [Nat.mul_add_div hp, Nat.div_eq_of_lt (by omega)]; omega
  have h2 : (2 ^ (nqubit - q) * b' + j') / 2 ^ (nqubit - q) = b' := by
    rw [Nat.mul_add_div hp, Nat.div_eq_of_lt (by omega)]; omega
  have e : b = b' := by rw [← h1, ← h2]; simp only [] at h; rw [h]
  subst e
  simp only [] at h
  exact ⟨rfl, by omega⟩

theorem nodup_pairIdx {nqubit q : ℕ} (hq : q < nqubit) {order : List (ℕ × ℕ)}
    (ho : order.Perm (blockPairs nqubit q)) : (order.map (pairIdx nqubit q)).Nodup := by
  rw [(ho.map _).nodup_iff]
  refine (List.nodup_map_iff_inj_on (nodup_blockPairs nqubit q)).2 ?_
  rintro ⟨b, j⟩ h ⟨b', j'⟩ h' e
  rw [mem_blockPairs hq] at h h'
  obtain ⟨rfl, rfl⟩ := pairIdx_inj hq h.2 h'.2 e
  rfl

theorem mem_pairIdx {nqubit q : ℕ} (hq : q < nqubit) {order : List (ℕ × ℕ)}
    (ho : order.Perm (blockPairs nqubit q)) (i : ℕ) :
    i ∈ order.map (pairIdx nqubit q) ↔ ∃ b < 2 ^ q, ∃ j < 2 ^ (nqubit - 1 - q),
      i = 2 * b * 2 ^ (nqubit - 1 - q) + j := by
  rw [(ho.map _).mem_iff, List.mem_map]
  constructor
  · rintro ⟨⟨b, j⟩, h, rfl⟩
    rw [mem_blockPairs hq] at h
    exact ⟨b, h.1, j, h.2, by unfold pairIdx; rw [pow_block hq]; ring⟩
  · rintro ⟨b, hb, j, hj, rfl⟩
    exact ⟨(b, j), (mem_blockPairs hq).2 ⟨hb, hj⟩, by unfold pairIdx; rw [pow_block hq]; ring⟩

theorem evolveSinglePar_eq (order : List (ℕ × ℕ)) (psi : Buf) (op : Mat2) {nqubit q : ℕ} (hq : q < nqubit) :
    evolveSinglePar order psi op nqubit q =
      (order.map (pairIdx nqubit q)).foldl (fun psi i => computeOpPsi op i 0 (2 ^ (nqubit - 1 - q)) psi) psi := by
  unfold evolveSinglePar
  rw [List.foldl_map]
  simp only [pow_half hq]
  rfl

/-- The value of `op` applied at qubit `q`, block by block. -/
theorem evolve_values {op : Mat2} {nqubit q : ℕ} (hq : q < nqubit) {order : List (ℕ × ℕ)}
    (ho : order.Perm (blockPairs nqubit q)) (psi : Buf) :
    (∀ b < 2 ^ q, ∀ j < 2 ^ (nqubit - 1 - q), ∀ x : Bool,
      evolveSinglePar order psi op nqubit q ((2 * b + x.toNat) * 2 ^ (nqubit - 1 - q) + j) =
        op x false * psi (2 * b * 2 ^ (nqubit - 1 - q) + j) +
        op x true * psi ((2 * b + 1) * 2 ^ (nqubit - 1 - q) + j)) ∧
    ∀ m, 2 ^ nqubit ≤ m → evolveSinglePar order psi op nqubit q m = psi m := by
  have hh : 0 < 2 ^ (nqubit - 1 - q) := by positivity
  have key := foldl_pairs op hh (order.map (pairIdx nqubit q)) psi (nodup_pairIdx hq ho) (by
    intro i hi
    obtain ⟨⟨b, j⟩, h, rfl⟩ := List.mem_map.1 hi
    have := (mem_blockPairs hq).1 (ho.mem_iff.1 h)
    exact pairIdx_low hq this.2)
  have hlow : ∀ i ∈ order.map (pairIdx nqubit q), Low (2 ^ (nqubit - 1 - q)) i := by
    intro i hi
    obtain ⟨⟨b, j⟩, h, rfl⟩ := List.mem_map.1 hi
    have := (mem_blockPairs hq).1 (ho.mem_iff.1 h)
    exact pairIdx_low hq this.2
  rw [← evolveSinglePar_eq order psi op hq] at key
  constructor
  · intro b hb j hj x
    have hmem : 2 * b * 2 ^ (nqubit - 1 - q) + j ∈ order.map (pairIdx nqubit q) :=
      (mem_pairIdx hq ho _).2 ⟨b, hb, j, hj, rfl⟩
    have e : (2 * b + 1) * 2 ^ (nqubit - 1 - q) + j = (2 * b * 2 ^ (nqubit - 1 - q) + j) + 2 ^ (nqubit - 1 - q) := by
      ring
    cases x
    · simp only [Bool.toNat_false, add_zero]
      rw [key, if_pos hmem, e]
    · simp only [Bool.toNat_true]
      rw [key, e, if_neg, if_pos ⟨by omega, by rw [Nat.add_sub_cancel]; exact hmem⟩, Nat.add_sub_cancel]
      intro h
      exact (hlow _ h).ne_add hh (hlow _ hmem) rfl
  · intro m hm
    have hpow : 2 ^ nqubit = 2 ^ q * (2 * 2 ^ (nqubit - 1 - q)) := by
      rw [← pow_block hq, ← pow_add]; congr 1; omega
    have bound : ∀ b < 2 ^ q, ∀ j < 2 ^ (nqubit - 1 - q),
        2 * b * 2 ^ (nqubit - 1 - q) + j + 2 ^ (nqubit - 1 - q) < 2 ^ nqubit := by
      intro b hb j hj
      rw [hpow]
      have : b + 1 ≤ 2 ^ q := hb
      nlinarith [this, hh]
    rw [key, if_neg, if_neg]
    · rintro ⟨h1, h2⟩
      obtain ⟨b, hb, j, hj, e⟩ := (mem_pairIdx hq ho _).1 h2
      have := bound b hb j hj
      omega
    · intro h
      obtain ⟨b, hb, j, hj, e⟩ := (mem_pairIdx hq ho _).1 h
      have := bound b hb j hj
      omega

theorem foldl_counter {α : Type} (f : α → ℕ → α) (s : ℕ) (n : ℕ) (a : α) (c : ℕ) :
    (List.range n).foldl (fun (st : α × ℕ) _ => (f st.1 st.2, st.2 + s)) (a, c) =
      ((List.range n).foldl (fun a b => f a (c + s * b)) a, c + s * n) := by
  induction n with
  | zero => simp
  | succ n ih =>
    rw [List.range_succ, List.foldl_append, List.foldl_append, ih]
    simp only [List.foldl_cons, List.foldl_nil]
    congr 1; ring

/-- The sequential loop is the parallel one in the order of the blocks. -/
theorem evolveSingleSeq_eq (psi : Buf) (op : Mat2) (nqubit q : ℕ) :
    evolveSingleSeq psi op nqubit q = evolveSinglePar (blockPairs nqubit q) psi op nqubit q := by
  unfold evolveSingleSeq evolveSinglePar blockPairs
  simp only []
  rw [foldl_counter (fun psi b0 => (List.range (2 ^ (nqubit - q) / 2)).foldl
    (fun psi j => computeOpPsi op b0 j (2 ^ (nqubit - q) / 2) psi) psi), List.foldl_flatMap]
  simp only [zero_add, List.foldl_map]

/-! ### Sums over the iterations -/

theorem sum_order {M : Type} [AddCommMonoid M] {nqubit q : ℕ} (hq : q < nqubit) {order : List (ℕ × ℕ)}
    (ho : order.Perm (blockPairs nqubit q)) (g : ℕ × ℕ → M) :
    (order.map g).sum = ∑ b ∈ Finset.range (2 ^ q), ∑ j ∈ Finset.range (2 ^ (nqubit - 1 - q)), g (b, j) := by
  rw [(ho.map g).sum_eq, ← List.sum_toFinset g (nodup_blockPairs nqubit q), ← Finset.sum_product']
  apply Finset.sum_congr
  · ext ⟨b, j⟩
    rw [List.mem_toFinset, mem_blockPairs hq]; simp
  · intros; rfl

theorem sum_range_mul {M : Type} [AddCommMonoid M] (f : ℕ → M) (a h : ℕ) :
    ∑ i ∈ Finset.range (a * h), f i = ∑ b ∈ Finset.range a, ∑ j ∈ Finset.range h, f (b * h + j) := by
  induction a with
  | zero => simp
  | succ a ih => rw [Nat.succ_mul, Finset.sum_range_add, ih, Finset.sum_range_succ]

theorem sum_blocks {M : Type} [AddCommMonoid M] (f : ℕ → M) {nqubit q : ℕ} (hq : q < nqubit) :
    ∑ i ∈ Finset.range (2 ^ nqubit), f i =
      ∑ b ∈ Finset.range (2 ^ q), ∑ j ∈ Finset.range (2 ^ (nqubit - 1 - q)),
        (f (2 * b * 2 ^ (nqubit - 1 - q) + j) + f ((2 * b + 1) * 2 ^ (nqubit - 1 - q) + j)) := by
  have hpow : 2 ^ nqubit = 2 ^ q * (2 * 2 ^ (nqubit - 1 - q)) := by
    rw [← pow_block hq, ← pow_add]; congr 1; omega
  rw [hpow, sum_range_mul]
  apply Finset.sum_congr rfl
  intro b _
  rw [two_mul, Finset.sum_range_add, ← Finset.sum_add_distrib]
  apply Finset.sum_congr rfl
  intro j _
  congr 1 <;> congr 1 <;> ring

/-! ### Evolving, with norms -/

theorem foldl_pairsNorm (op : Mat2) {h : ℕ} (hh : 0 < h) (L : List ℕ) : ∀ (psi : Buf) (x y : ℝ), L.Nodup →
    (∀ i ∈ L, Low h i) →
    L.foldl (fun st i => computeOpPsiNorm op i 0 h st) (psi, x, y) =
      (L.foldl (fun psi i => computeOpPsi op i 0 h psi) psi,
        x + (L.map (fun i => Complex.normSq (op false false * psi i + op false true * psi (i + h)))).sum,
        y + (L.map (fun i => Complex.normSq (op true false * psi i + op true true * psi (i + h)))).sum) := by
  induction L with
  | nil => intro psi x y _ _; simp
  | cons i L ih =>
    intro psi x y hnd hlow
    rw [List.nodup_cons] at hnd
    have hl := hlow i (by simp)
    rw [List.foldl_cons, List.foldl_cons]
    have e : computeOpPsiNorm op i 0 h (psi, x, y) = (computeOpPsi op i 0 h psi,
        x + Complex.normSq (op false false * psi i + op false true * psi (i + h)),
        y + Complex.normSq (op true false * psi i + op true true * psi (i + h))) := rfl
    rw [e, ih _ _ _ hnd.2 (fun j hj => hlow j (by simp [hj]))]
    have same : ∀ m ∈ L, computeOpPsi op i 0 h psi m = psi m ∧ computeOpPsi op i 0 h psi (m + h) = psi (m + h) := by
      intro m hm
      have hml := hlow m (by simp [hm])
      have e1 : m ≠ i := by rintro rfl; exact hnd.1 hm
      have e2 : m ≠ i + h := hml.ne_add hh hl
      have e3 : m + h ≠ i + h := by omega
      have e4 : m + h ≠ i := (hl.ne_add hh hml).symm
      unfold computeOpPsi
      simp only [add_zero]
      rw [update_of_ne e2, update_of_ne e1, update_of_ne e3, update_of_ne e4]
      exact ⟨rfl, rfl⟩
    congr 1
    simp only [List.map_cons, List.sum_cons, ← add_assoc]
    congr 1
    · congr 2
      apply List.map_congr_left
      intro m hm; rw [(same m hm).1, (same m hm).2]
    · congr 2
      apply List.map_congr_left
      intro m hm; rw [(same m hm).1, (same m hm).2]

theorem evolveSingleNorm_eq (op : Mat2) {nqubit q : ℕ} (hq : q < nqubit) {order : List (ℕ × ℕ)}
    (ho : order.Perm (blockPairs nqubit q)) (psi : Buf) :
    evolveSingleNorm order psi op nqubit q = (evolveSinglePar order psi op nqubit q,
      ∑ b ∈ Finset.range (2 ^ q), ∑ j ∈ Finset.range (2 ^ (nqubit - 1 - q)),
        Complex.normSq (op false false * psi (2 * b * 2 ^ (nqubit - 1 - q) + j) +
          op false true * psi ((2 * b + 1) * 2 ^ (nqubit - 1 - q) + j)),
      ∑ b ∈ Finset.range (2 ^ q), ∑ j ∈ Finset.range (2 ^ (nqubit - 1 - q)),
        Complex.normSq (op true false * psi (2 * b * 2 ^ (nqubit - 1 - q) + j) +
          op true true * psi ((2 * b + 1) * 2 ^ (nqubit - 1 - q) + j))) := by
  have hh : 0 < 2 ^ (nqubit - 1 - q) := by positivity
  have hlow : ∀ i ∈ order.map (pairIdx nqubit q), Low (2 ^ (nqubit - 1 - q)) i := by
    intro i hi
    obtain ⟨⟨b, j⟩, h, rfl⟩ := List.mem_map.1 hi
    have := (mem_blockPairs hq).1 (ho.mem_iff.1 h)
    exact pairIdx_low hq this.2
  have e : evolveSingleNorm order psi op nqubit q = (order.map (pairIdx nqubit q)).foldl
      (fun st i => computeOpPsiNorm op i 0 (2 ^ (nqubit - 1 - q)) st) (psi, 0, 0) := by
    unfold evolveSingleNorm
    rw [List.foldl_map]
    simp only [pow_half hq, mul_comm _ (2 ^ (nqubit - q))]
    rfl
  rw [e, foldl_pairsNorm op hh _ psi 0 0 (nodup_pairIdx hq ho) hlow, ← evolveSinglePar_eq order psi op hq]
  simp only [zero_add, List.map_map]
  rw [sum_order hq ho, sum_order hq ho]
  have hi : ∀ b j, pairIdx nqubit q (b, j) = 2 * b * 2 ^ (nqubit - 1 - q) + j := by
    intro b j; unfold pairIdx; rw [pow_block hq]; ring
  have hi' : ∀ b j, 2 * b * 2 ^ (nqubit - 1 - q) + j + 2 ^ (nqubit - 1 - q) =
      (2 * b + 1) * 2 ^ (nqubit - 1 - q) + j := by intro b j; ring
  simp only [Function.comp, hi, hi']

theorem foldl_add_sum {α M : Type} [AddCommMonoid M] (g : α → M) (l : List α) (x : M) :
    l.foldl (fun r a => r + g a) x = x + (l.map g).sum := by
  induction l generalizing x with
  | nil => simp
  | cons a l ih => rw [List.foldl_cons, ih]; simp [add_assoc]

theorem expectationSingle_eq (op : Mat2) {nqubit q : ℕ} (hq : q < nqubit) {order : List (ℕ × ℕ)}
    (ho : order.Perm (blockPairs nqubit q)) (psi : Buf) :
    expectationSingle order psi op nqubit q =
      ∑ b ∈ Finset.range (2 ^ q), ∑ j ∈ Finset.range (2 ^ (nqubit - 1 - q)),
        (star (psi (2 * b * 2 ^ (nqubit - 1 - q) + j)) *
          (op false false * psi (2 * b * 2 ^ (nqubit - 1 - q) + j) +
            op false true * psi ((2 * b + 1) * 2 ^ (nqubit - 1 - q) + j)) +
        star (psi ((2 * b + 1) * 2 ^ (nqubit - 1 - q) + j)) *
          (op true false * psi (2 * b * 2 ^ (nqubit - 1 - q) + j) +
            op true true * psi ((2 * b + 1) * 2 ^ (nqubit - 1 - q) + j))) := by
  unfold expectationSingle
  simp only []
  rw [foldl_add_sum, zero_add, sum_order hq ho]
  have hi : ∀ b j, 2 ^ (nqubit - q) * b + j = 2 * b * 2 ^ (nqubit - 1 - q) + j := by
    intro b j; rw [pow_block hq]; ring
  have hi' : ∀ b j, 2 * b * 2 ^ (nqubit - 1 - q) + j + 2 ^ (nqubit - 1 - q) =
      (2 * b + 1) * 2 ^ (nqubit - 1 - q) + j := by intro b j; ring
  simp only [computePsicOpPsi, pow_half hq, hi, hi']

/-! ### Scaling in place -/

/-- Where index `m` of the shrunk buffer reads. -/
def readIdx (h shift m : ℕ) : ℕ := shift + 2 * h * (m / h) + m % h

theorem readIdx_ge (h shift m : ℕ) : m ≤ readIdx h shift m := by
  unfold readIdx
  have := Nat.div_add_mod m h
  nlinarith [Nat.zero_le (h * (m / h))]

/-- The buffer after `k` entries have been written. -/
def scaled (psi : Buf) (h shift : ℕ) (inv : ℂ) (k m : ℕ) : ℂ :=
  if m < k then psi (readIdx h shift m) * inv else psi m

theorem scalePsiKernel_inner (psi : Buf) {h : ℕ} (shift b : ℕ) (inv : ℂ) (n : ℕ) (hn : n ≤ h) :
    (List.range n).foldl (fun (s : Buf × ℕ) j =>
      (update s.1 s.2 (s.1 (shift + 2 * h * b + j) * inv), s.2 + 1)) (scaled psi h shift inv (b * h), b * h) =
    (scaled psi h shift inv (b * h + n), b * h + n) := by
  induction n with
  | zero => simp
  | succ n ih =>
    rw [List.range_succ, List.foldl_append, ih (by omega)]
    simp only [List.foldl_cons, List.foldl_nil]
    have hpos : 0 < h := by omega
    have hread : readIdx h shift (b * h + n) = shift + 2 * h * b + n := by
      unfold readIdx
      rw [show b * h + n = n + b * h by ring, Nat.add_mul_div_right _ _ hpos, Nat.div_eq_of_lt (by omega),
        Nat.add_mul_mod_self_right, Nat.mod_eq_of_lt (by omega)]; ring
    have hge := readIdx_ge h shift (b * h + n)
    rw [hread] at hge
    refine Prod.ext ?_ (by simp; ring)
    funext m
    simp only []
    have hval : scaled psi h shift inv (b * h + n) (shift + 2 * h * b + n) = psi (shift + 2 * h * b + n) := by
      unfold scaled; rw [if_neg (by omega)]
    by_cases hm : m = b * h + n
    · subst hm
      rw [update_self, hval]
      unfold scaled
      rw [if_pos (by omega), hread]
    · rw [update_of_ne hm]
      unfold scaled
      by_cases h1 : m < b * h + n
      · rw [if_pos h1, if_pos (by omega)]
      · rw [if_neg h1, if_neg (by omega)]

theorem scalePsiKernel_eq (psi : Buf) (nb h shift : ℕ) (inv : ℝ) :
    scalePsiKernel psi nb (2 * h) h shift inv = scaled psi h shift inv (nb * h) := by
  have key : ∀ n, (List.range n).foldl (fun (st : Buf × ℕ × ℕ) _ =>
      let st' := (List.range h).foldl (fun (s : Buf × ℕ) j =>
        (update s.1 s.2 (s.1 (st.2.1 + j) * (inv : ℂ)), s.2 + 1)) (st.1, st.2.2)
      (st'.1, st.2.1 + 2 * h, st'.2)) (psi, shift, 0) =
      (scaled psi h shift inv (n * h), shift + 2 * h * n, n * h) := by
    intro n
    induction n with
    | zero =>
      have : scaled psi h shift (inv : ℂ) (0 * h) = psi := by funext m; simp [scaled]
      rw [this]; simp
    | succ n ih =>
      rw [List.range_succ, List.foldl_append, ih]
      simp only [List.foldl_cons, List.foldl_nil]
      rw [scalePsiKernel_inner psi shift n inv h le_rfl, show n * h + h = (n + 1) * h by ring]
      refine Prod.ext rfl (Prod.ext ?_ rfl)
      simp only []; ring
  unfold scalePsiKernel
  rw [key]

theorem scalePsi_eq (psi : Buf) (nb h shift : ℕ) (inv : ℝ) :
    scalePsi psi nb (2 * h) h shift inv = scaled psi h shift inv (nb * h) := by
  rw [← scalePsiKernel_eq]
  unfold scalePsi
  split_ifs with h1 h2 h3
  · have : h = 1 := by omega
    subst this; rfl
  · have : h = 2 := by omega
    subst this; rfl
  · have : h = 4 := by omega
    subst this; rfl
  · rfl

/-! ### Projecting -/

/-- The amplitude at index `m` of the state projected at qubit `q` on `v`. -/
noncomputable def projAmp (psi : Buf) (v : Bool → ℂ) (nqubit q m : ℕ) : ℂ :=
  star (v false) * psi (readIdx (2 ^ (nqubit - 1 - q)) 0 m) +
  star (v true) * psi (readIdx (2 ^ (nqubit - 1 - q)) (2 ^ (nqubit - 1 - q)) m)

/-- The squared norm of the projected state. -/
noncomputable def projProb (psi : Buf) (v : Bool → ℂ) (nqubit q : ℕ) : ℝ :=
  normSq (nqubit - 1) (projAmp psi v nqubit q)

theorem readIdx_block {h b j : ℕ} (hj : j < h) (x : Bool) :
    readIdx h (x.toNat * h) (b * h + j) = (2 * b + x.toNat) * h + j := by
  have hpos : 0 < h := by omega
  unfold readIdx
  rw [show b * h + j = j + b * h by ring, Nat.add_mul_div_right _ _ hpos, Nat.div_eq_of_lt hj,
    Nat.add_mul_mod_self_right, Nat.mod_eq_of_lt hj]; ring

theorem projAmp_block (psi : Buf) (v : Bool → ℂ) {nqubit q b j : ℕ} (hj : j < 2 ^ (nqubit - 1 - q)) :
    projAmp psi v nqubit q (b * 2 ^ (nqubit - 1 - q) + j) =
      star (v false) * psi (2 * b * 2 ^ (nqubit - 1 - q) + j) +
      star (v true) * psi ((2 * b + 1) * 2 ^ (nqubit - 1 - q) + j) := by
  have h0 := readIdx_block (b := b) hj false
  have h1 := readIdx_block (b := b) hj true
  simp only [Bool.toNat_false, zero_mul, add_zero, Bool.toNat_true, one_mul] at h0 h1
  unfold projAmp
  rw [h0, h1]

theorem projProb_eq (psi : Buf) (v : Bool → ℂ) {nqubit q : ℕ} (hq : q < nqubit) :
    projProb psi v nqubit q = ∑ b ∈ Finset.range (2 ^ q), ∑ j ∈ Finset.range (2 ^ (nqubit - 1 - q)),
      Complex.normSq (star (v false) * psi (2 * b * 2 ^ (nqubit - 1 - q) + j) +
        star (v true) * psi ((2 * b + 1) * 2 ^ (nqubit - 1 - q) + j)) := by
  unfold projProb normSq
  rw [show 2 ^ (nqubit - 1) = 2 ^ q * 2 ^ (nqubit - 1 - q) by rw [← pow_add]; congr 1; omega, sum_range_mul]
  apply Finset.sum_congr rfl
  intro b _
  apply Finset.sum_congr rfl
  intro j hj
  rw [projAmp_block psi v (Finset.mem_range.1 hj)]

theorem projProb_nonneg (psi : Buf) (v : Bool → ℂ) (nqubit q : ℕ) : 0 ≤ projProb psi v nqubit q := by
  unfold projProb normSq
  exact Finset.sum_nonneg (fun _ _ => Complex.normSq_nonneg _)

theorem outer_row (v : Bool → ℂ) (x : Bool) (a b : ℂ) :
    outer v x false * a + outer v x true * b = v x * (star (v false) * a + star (v true) * b) := by
  unfold outer; ring

/-- The expectation of the projector is the squared norm of the projected state; in particular it is
real, so the assertion of `f_expectation0` holds. -/
theorem expectation_outer (v : Bool → ℂ) {nqubit q : ℕ} (hq : q < nqubit)
    {order : List (ℕ × ℕ)} (ho : order.Perm (blockPairs nqubit q)) (psi : Buf) :
    expectationSingle order psi (outer v) nqubit q = (projProb psi v nqubit q : ℂ) := by
  rw [expectationSingle_eq _ hq ho, projProb_eq _ _ hq]
  push_cast
  apply Finset.sum_congr rfl
  intro b _
  apply Finset.sum_congr rfl
  intro j _
  rw [outer_row, outer_row, Complex.normSq_eq_conj_mul_self]
  simp only [map_add, map_mul, starRingEnd_apply, star_star]
  ring

theorem projProb_complete (psi : Buf) {nqubit q : ℕ} (hq : q < nqubit) {v w : Bool → ℂ}
    (h : outer v + outer w = 1) :
    projProb psi v nqubit q + projProb psi w nqubit q = normSq nqubit psi := by
  unfold normSq
  rw [projProb_eq _ _ hq, projProb_eq _ _ hq, sum_blocks _ hq, ← Finset.sum_add_distrib]
  apply Finset.sum_congr rfl
  intro b _
  rw [← Finset.sum_add_distrib]
  apply Finset.sum_congr rfl
  intro j _
  generalize psi (2 * b * 2 ^ (nqubit - 1 - q) + j) = x
  generalize psi ((2 * b + 1) * 2 ^ (nqubit - 1 - q) + j) = y
  have e : ∀ i k, v i * star (v k) + w i * star (w k) = (1 : Mat2) i k := fun i k => congrFun (congrFun h i) k
  have e00 := e false false
  have e01 := e false true
  have e10 := e true false
  have e11 := e true true
  simp only [Matrix.one_apply_eq, ne_eq, Bool.false_eq_true, not_false_eq_true, Matrix.one_apply_ne,
    reduceCtorEq] at e00 e01 e10 e11
  apply Complex.ofReal_injective
  push_cast
  simp only [Complex.normSq_eq_conj_mul_self, map_add, map_mul, starRingEnd_apply, star_star]
  linear_combination (star x * x) * e00 + (star x * y) * e01 + (star y * x) * e10 + (star y * y) * e11

theorem projectQubit_spec {v : Bool → ℂ} (hv : UnitVec v) {nqubit q : ℕ} (hq : q < nqubit)
    {order : List (ℕ × ℕ)} (ho : order.Perm (blockPairs nqubit q)) (psi : Buf) {atol : ℝ} (ha : 0 ≤ atol) :
    (projectQubitJit order psi (outer v) nqubit q atol = .error .runtimeError ∧
      projProb psi v nqubit q ≤ 2 * atol) ∨
    ∃ psi' c, projectQubitJit order psi (outer v) nqubit q atol = .ok (psi', nqubit - 1) ∧
      Complex.normSq c * projProb psi v nqubit q = 1 ∧ atol < projProb psi v nqubit q ∧
      (∀ m < 2 ^ (nqubit - 1), psi' m = c * projAmp psi v nqubit q m) ∧
      (∀ m, 2 ^ nqubit ≤ m → psi' m = psi m) := by
  set p := projProb psi v nqubit q with hp
  have hp0 : 0 ≤ p := projProb_nonneg _ _ _ _
  have hu : Complex.normSq (v false) + Complex.normSq (v true) = 1 := by
    unfold UnitVec at hv
    apply Complex.ofReal_injective
    push_cast
    simp only [Complex.normSq_eq_conj_mul_self]
    exact hv
  have hn := evolveSingleNorm_eq (outer v) hq ho psi
  have hnorm : ∀ x : Bool, (∑ b ∈ Finset.range (2 ^ q), ∑ j ∈ Finset.range (2 ^ (nqubit - 1 - q)),
        Complex.normSq (outer v x false * psi (2 * b * 2 ^ (nqubit - 1 - q) + j) +
          outer v x true * psi ((2 * b + 1) * 2 ^ (nqubit - 1 - q) + j))) = Complex.normSq (v x) * p := by
    intro x
    rw [hp, projProb_eq _ _ hq, Finset.mul_sum]
    apply Finset.sum_congr rfl; intro b _
    rw [Finset.mul_sum]
    apply Finset.sum_congr rfl; intro j _
    rw [outer_row, Complex.normSq_mul]
  rw [hnorm false, hnorm true] at hn
  -- the outcome of the choice of the half
  have fin : ∀ x : Bool, atol < Complex.normSq (v x) * p →
      ∃ psi' c, (Except.ok (scalePsi (evolveSinglePar order psi (outer v) nqubit q) (2 ^ q) (2 ^ (nqubit - q))
          (2 ^ (nqubit - q) / 2) (x.toNat * (2 ^ (nqubit - q) / 2)) (1 / Real.sqrt (Complex.normSq (v x) * p)),
          nqubit - 1) : Except PyErr (Buf × ℕ)) = .ok (psi', nqubit - 1) ∧
        Complex.normSq c * p = 1 ∧ atol < p ∧
        (∀ m < 2 ^ (nqubit - 1), psi' m = c * projAmp psi v nqubit q m) ∧
        (∀ m, 2 ^ nqubit ≤ m → psi' m = psi m) := by
    intro x hx
    have hN : 0 < Complex.normSq (v x) * p := lt_of_le_of_lt ha hx
    have hvx : 0 < Complex.normSq (v x) := by
      rcases (Complex.normSq_nonneg (v x)).lt_or_eq with h | h
      · exact h
      · rw [← h] at hN; simp at hN
    have hpp : 0 < p := by
      rcases hp0.lt_or_eq with h | h
      · exact h
      · rw [← h] at hN; simp at hN
    have hle : Complex.normSq (v x) ≤ 1 := by
      have h1 := Complex.normSq_nonneg (v false)
      have h2 := Complex.normSq_nonneg (v true)
      cases x <;> linarith
    obtain ⟨ev, ev2⟩ := evolve_values (op := outer v) hq ho psi
    refine ⟨_, v x * ((1 / Real.sqrt (Complex.normSq (v x) * p) : ℝ) : ℂ), rfl, ?_, by nlinarith, ?_, ?_⟩
    · rw [Complex.normSq_mul, Complex.normSq_ofReal, div_mul_div_comm, Real.mul_self_sqrt hN.le]
      field_simp
    · intro m hm
      rw [pow_half hq, pow_block hq, scalePsi_eq]
      have e2 : 2 ^ q * 2 ^ (nqubit - 1 - q) = 2 ^ (nqubit - 1) := by rw [← pow_add]; congr 1; omega
      unfold scaled
      rw [if_pos (by rw [e2]; exact hm)]
      have hpos : 0 < 2 ^ (nqubit - 1 - q) := by positivity
      have hmod := Nat.mod_lt m hpos
      have hdiv : m / 2 ^ (nqubit - 1 - q) < 2 ^ q := by
        rw [Nat.div_lt_iff_lt_mul hpos, e2]; exact hm
      have em : m / 2 ^ (nqubit - 1 - q) * 2 ^ (nqubit - 1 - q) + m % 2 ^ (nqubit - 1 - q) = m :=
        Nat.div_add_mod' m _
      rw [← em, readIdx_block hmod, ev _ hdiv _ hmod, projAmp_block psi v hmod, outer_row]
      ring
    · intro m hm
      rw [pow_half hq, pow_block hq, scalePsi_eq]
      have e2 : 2 ^ q * 2 ^ (nqubit - 1 - q) = 2 ^ (nqubit - 1) := by rw [← pow_add]; congr 1; omega
      have e3 : 2 ^ nqubit = 2 * 2 ^ (nqubit - 1) := by
        rw [← pow_succ']; congr 1; omega
      unfold scaled
      rw [if_neg (by rw [e2]; omega), ev2 m hm]
  unfold projectQubitJit
  simp only [hn]
  by_cases h0 : Complex.normSq (v false) * p ≤ atol
  · simp only [h0, if_true]
    by_cases h1 : Complex.normSq (v true) * p ≤ atol
    · left
      refine ⟨if_pos h1, ?_⟩
      have : p = Complex.normSq (v false) * p + Complex.normSq (v true) * p := by rw [← add_mul, hu, one_mul]
      linarith
    · right
      rw [if_neg h1]
      have := fin true (not_le.1 h1)
      simpa only [Bool.toNat_true, one_mul] using this
  · right
    simp only [h0, if_false]
    have := fin false (not_le.1 h0)
    simpa only [Bool.toNat_false, zero_mul] using this

/-! ### Entangling -/

theorem foldl_entangle (mask : ℕ) (L : List ℕ) : ∀ (psi : Buf), L.Nodup → ∀ m,
    (L.foldl (entangleStep mask) psi) m = if m ∈ L ∧ mask &&& m = mask then -psi m else psi m := by
  induction L with
  | nil => intro psi _ m; simp
  | cons i L ih =>
    intro psi hnd m
    rw [List.nodup_cons] at hnd
    rw [List.foldl_cons, ih _ hnd.2]
    by_cases hm : m ∈ L
    · have e : m ≠ i := by rintro rfl; exact hnd.1 hm
      have : entangleStep mask psi i m = psi m := by
        unfold entangleStep; split
        · rw [update_of_ne e]
        · rfl
      simp [hm, this]
    · by_cases e : m = i
      · subst e
        unfold entangleStep
        by_cases h : mask &&& m = mask <;> simp [hm, h]
      · have : entangleStep mask psi i m = psi m := by
          unfold entangleStep; split
          · rw [update_of_ne e]
          · rfl
        simp [hm, e, this]

theorem mask_iff (a c m : ℕ) : (2 ^ a ||| 2 ^ c) &&& m = (2 ^ a ||| 2 ^ c) ↔ m.testBit a = true ∧ m.testBit c = true := by
  constructor
  · intro h
    refine ⟨?_, ?_⟩
    · have := congrArg (fun x => Nat.testBit x a) h
      simpa [Nat.testBit_and, Nat.testBit_or, Nat.testBit_two_pow_self] using this
    · have := congrArg (fun x => Nat.testBit x c) h
      simpa [Nat.testBit_and, Nat.testBit_or, Nat.testBit_two_pow_self] using this
  · rintro ⟨h1, h2⟩
    apply Nat.eq_of_testBit_eq
    intro i
    simp only [Nat.testBit_and, Nat.testBit_or, Nat.testBit_two_pow]
    by_cases ha : a = i
    · subst ha; simp [h1]
    · by_cases hc : c = i
      · subst hc; simp [h2]
      · simp [ha, hc]

theorem entangleJit_eq {order : List ℕ} {nqubit : ℕ} (ho : order.Perm (List.range (2 ^ nqubit))) (psi : Buf)
    (q1 q2 m : ℕ) :
    entangleJit order psi nqubit q1 q2 m =
      if m < 2 ^ nqubit ∧ m.testBit (nqubit - 1 - q1) = true ∧ m.testBit (nqubit - 1 - q2) = true
      then -psi m else psi m := by
  unfold entangleJit
  rw [foldl_entangle _ _ _ (ho.nodup_iff.2 List.nodup_range)]
  simp only [mask_iff, ho.mem_iff, List.mem_range]

/-! ### Adding nodes -/

theorem addDefaultNodeLoop_eq (psi0 : Buf) (r : ℕ) : ∀ (psi : Buf),
    (∀ m < r, psi m = psi0 m) → ∀ m,
    addDefaultNodeLoop r (2 * r - 1) psi m =
      if m < 2 * r then (1 / Real.sqrt 2 : ℂ) * psi0 (m / 2) else psi m := by
  induction r with
  | zero => intro psi _ m; simp [addDefaultNodeLoop]
  | succ r ih =>
    intro psi h m
    unfold addDefaultNodeLoop
    rw [show 2 * (r + 1) - 1 - 2 = 2 * r - 1 by omega, ih]
    · have e1 : 2 * (r + 1) - 1 = 2 * r + 1 := by omega
      have e2 : 2 * (r + 1) - 1 - 1 = 2 * r := by omega
      rw [e2, e1]
      by_cases hm : m < 2 * r
      · rw [if_pos hm, if_pos (by omega)]
      · rw [if_neg hm]
        by_cases h1 : m = 2 * r
        · subst h1; rw [update_self, if_pos (by omega), h r (by omega)]; congr 2; omega
        · rw [update_of_ne h1]
          by_cases h2 : m = 2 * r + 1
          · subst h2; rw [update_self, if_pos (by omega), h r (by omega)]; congr 2; omega
          · rw [update_of_ne h2, if_neg (by omega)]
    · intro m hm
      rw [update_of_ne (by omega), update_of_ne (by omega), h m (by omega)]

theorem addDefaultNodeJit_eq (psi : Buf) (nqubit m : ℕ) :
    addDefaultNodeJit psi nqubit m =
      if m < 2 ^ (nqubit + 1) then (1 / Real.sqrt 2 : ℂ) * psi (m / 2) else psi m := by
  unfold addDefaultNodeJit
  rw [show 2 ^ (nqubit + 1) = 2 * 2 ^ nqubit by rw [pow_succ]; ring, addDefaultNodeLoop_eq psi _ psi (fun _ _ => rfl)]

/-- The buffer of `_tensor_jit` when `r` entries remain to be written. -/
def tensored (psi other : Buf) (so r m : ℕ) (total : ℕ) : ℂ :=
  if r ≤ m ∧ m < total then psi (m / so) * other (m % so) else psi m

theorem tensorJit_inner (psi other : Buf) {so total : ℕ} (i : ℕ) (hi : (i + 1) * so ≤ total) (n : ℕ) (hn : n ≤ so) :
    (List.range n).foldl (fun (st : Buf × ℕ) j =>
      (update st.1 st.2 (psi i * other (so - 1 - j)), st.2 - 1))
      (fun m => tensored psi other so ((i + 1) * so) m total, (i + 1) * so - 1) =
    (fun m => tensored psi other so ((i + 1) * so - n) m total, (i + 1) * so - n - 1) := by
  induction n with
  | zero => simp
  | succ n ih =>
    rw [List.range_succ, List.foldl_append, ih (by omega)]
    simp only [List.foldl_cons, List.foldl_nil]
    have hpos : 0 < so := by omega
    have hge : so ≤ (i + 1) * so := Nat.le_mul_of_pos_left _ (by omega)
    refine Prod.ext ?_ (by simp only []; omega)
    funext m
    simp only []
    by_cases hm : m = (i + 1) * so - n - 1
    · subst hm
      rw [update_self]
      unfold tensored
      rw [if_pos (by omega)]
      have e : (i + 1) * so - n - 1 = (so - 1 - n) + i * so := by
        rw [Nat.succ_mul]; omega
      rw [e, Nat.add_mul_div_right _ _ hpos, Nat.div_eq_of_lt (by omega), Nat.add_mul_mod_self_right,
        Nat.mod_eq_of_lt (by omega), zero_add]
    · rw [update_of_ne hm]
      unfold tensored
      by_cases h1 : (i + 1) * so - n ≤ m ∧ m < total
      · rw [if_pos h1, if_pos (by omega)]
      · rw [if_neg h1, if_neg (by omega)]

theorem tensorJit_eq (psi other : Buf) (n k m : ℕ) :
    tensorJit psi other n k m =
      if m < 2 ^ (n + k) then psi (m / 2 ^ k) * other (m % 2 ^ k) else psi m := by
  set sp := 2 ^ n with hsp
  set so := 2 ^ k with hso
  have hpos : 0 < so := by positivity
  have key : ∀ i ≤ sp, (List.range i).foldl (fun (st : Buf × ℕ) i =>
      let alphaOld := st.1 (sp - 1 - i)
      (List.range so).foldl (fun (st : Buf × ℕ) j =>
        (update st.1 st.2 (alphaOld * other (so - 1 - j)), st.2 - 1)) st) (psi, sp * so - 1) =
      (fun m => tensored psi other so ((sp - i) * so) m (sp * so), (sp - i) * so - 1) := by
    intro i
    induction i with
    | zero =>
      intro _
      refine Prod.ext ?_ (by simp)
      funext m
      simp only [List.range_zero, List.foldl_nil, tensored, Nat.sub_zero]
      rw [if_neg (by omega)]
    | succ i ih =>
      intro hi
      rw [List.range_succ, List.foldl_append, ih (by omega)]
      simp only [List.foldl_cons, List.foldl_nil]
      have e1 : sp - i = (sp - 1 - i) + 1 := by omega
      have hv : tensored psi other so ((sp - i) * so) (sp - 1 - i) (sp * so) = psi (sp - 1 - i) := by
        unfold tensored
        rw [if_neg]
        rintro ⟨h1, -⟩
        have : sp - i ≤ (sp - i) * so := Nat.le_mul_of_pos_right _ hpos
        omega
      rw [hv, e1, tensorJit_inner psi other (sp - 1 - i) (by
        apply Nat.mul_le_mul_right; omega) so le_rfl]
      have e2 : (sp - 1 - i + 1) * so - so = (sp - (i + 1)) * so := by
        rw [Nat.succ_mul, Nat.add_sub_cancel]; congr 1; omega
      rw [e2]
  unfold tensorJit
  simp only [← hsp, ← hso]
  rw [key sp le_rfl]
  simp only [tensored, Nat.sub_self, zero_mul, zero_le, true_and]
  rw [show 2 ^ (n + k) = sp * so by rw [pow_add]]

/-! ### Swapping -/

theorem foldl_swap (mask1 mask2 : ℕ) (hne : mask1 ||| mask2 ≠ 0)
    (hbit : ∀ i : ℕ, (decide (i &&& mask1 ≠ 0) ≠ decide (i &&& mask2 ≠ 0)) →
      (decide ((i ^^^ (mask1 ||| mask2)) &&& mask1 ≠ 0) ≠ decide ((i ^^^ (mask1 ||| mask2)) &&& mask2 ≠ 0)))
    (L : List ℕ) : ∀ (psi : Buf), L.Nodup → ∀ m,
    (L.foldl (swapStep mask1 mask2) psi) m =
      if (decide (m &&& mask1 ≠ 0) ≠ decide (m &&& mask2 ≠ 0)) ∧ min m (m ^^^ (mask1 ||| mask2)) ∈ L
      then psi (m ^^^ (mask1 ||| mask2)) else psi m := by
  set M := mask1 ||| mask2 with hM
  have inv : ∀ i, (i ^^^ M) ^^^ M = i := fun i => by rw [Nat.xor_assoc, Nat.xor_self, Nat.xor_zero]
  have neq : ∀ i, i ^^^ M ≠ i := by
    intro i h
    apply hne
    have := congrArg (fun x => i ^^^ x) h
    simpa [← Nat.xor_assoc] using this
  induction L with
  | nil => intro psi _ m; simp
  | cons i L ih =>
    intro psi hnd m
    rw [List.nodup_cons] at hnd
    rw [List.foldl_cons, ih _ hnd.2]
    have val : ∀ x, swapStep mask1 mask2 psi i x =
        if (decide (i &&& mask1 ≠ 0) ≠ decide (i &&& mask2 ≠ 0)) ∧ i < i ^^^ M ∧ (x = i ∨ x = i ^^^ M)
        then psi (x ^^^ M) else psi x := by
      intro x
      unfold swapStep
      simp only [← hM]
      by_cases h1 : decide (i &&& mask1 ≠ 0) ≠ decide (i &&& mask2 ≠ 0)
      · rw [if_pos h1]
        by_cases h2 : i < i ^^^ M
        · rw [if_pos h2]
          by_cases h3 : x = i
          · subst h3; rw [update_self, if_pos ⟨h1, h2, Or.inl rfl⟩]
          · rw [update_of_ne h3]
            by_cases h4 : x = i ^^^ M
            · subst h4; rw [update_self, if_pos ⟨h1, h2, Or.inr rfl⟩, inv]
            · rw [update_of_ne h4, if_neg (by rintro ⟨-, -, h | h⟩ <;> contradiction)]
        · rw [if_neg h2, if_neg (fun h => h2 h.2.1)]
      · rw [if_neg h1, if_neg (fun h => h1 h.1)]
    by_cases hc : decide (m &&& mask1 ≠ 0) ≠ decide (m &&& mask2 ≠ 0)
    · have hc' := hbit m hc
      by_cases hm : min m (m ^^^ M) ∈ L
      · have hne' : min m (m ^^^ M) ≠ i := by rintro h; rw [h] at hm; exact hnd.1 hm
        rw [if_pos ⟨hc, hm⟩, if_pos ⟨hc, by simp [hm]⟩, val, if_neg]
        rintro ⟨-, h2, h3 | h3⟩
        · apply hne'; rw [h3]
          have : m = i ^^^ M := by rw [← h3, inv]
          rw [this]; omega
        · apply hne'
          have : m = i := by rw [← inv m, h3, inv]
          rw [this]; omega
      · rw [if_neg (fun h => hm h.2), val]
        by_cases hi : min m (m ^^^ M) = i
        · rw [if_pos (c := decide (m &&& mask1 ≠ 0) ≠ decide (m &&& mask2 ≠ 0) ∧ _) ⟨hc, by simp [hi]⟩]
          have hn := neq m
          rw [if_pos]
          rcases lt_or_gt_of_ne hn with h | h
          · rw [min_eq_right h.le] at hi
            subst hi
            exact ⟨hc', by rw [inv]; exact h, Or.inr (inv m).symm⟩
          · rw [min_eq_left h.le] at hi
            subst hi
            exact ⟨hc, h, Or.inl rfl⟩
        · rw [if_neg (c := decide (m &&& mask1 ≠ 0) ≠ decide (m &&& mask2 ≠ 0) ∧ _)
            (by rintro ⟨-, h⟩; rcases List.mem_cons.1 h with h | h; exacts [hi h, hm h])]
          rw [if_neg]
          rintro ⟨-, h2, h3 | h3⟩
          · subst h3; exact hi (min_eq_left h2.le)
          · have : m ^^^ M = i := by rw [h3, inv]
            apply hi; rw [this, h3]; omega
    · rw [if_neg (fun h => hc h.1), if_neg (fun h => hc h.1), val, if_neg]
      rintro ⟨h1, h2, h3 | h3⟩
      · subst h3; exact hc h1
      · have := hbit i h1
        rw [← h3] at this
        exact hc this

end Graphix
