import Verif.Model.TensorNet
import Verif.Spec.Semantics

/-!
# Contraction of tensor networks
-/

namespace Graphix

open Function

/-- Sum over the values of the indices `J`; the values of the other indices are given by `a`. -/
noncomputable def sumOver (J : Finset ℕ) (f : (ℕ → Bool) → ℂ) (a : ℕ → Bool) : ℂ :=
  ∑ T ∈ J.powerset, f fun i => if i ∈ J then decide (i ∈ T) else a i

theorem sumOver_empty (f : (ℕ → Bool) → ℂ) (a : ℕ → Bool) : sumOver ∅ f a = f a := by
  simp [sumOver]

theorem sumOver_insert {J : Finset ℕ} {i : ℕ} (hi : i ∉ J) (f : (ℕ → Bool) → ℂ) (a : ℕ → Bool) :
    sumOver (insert i J) f a = sumOver J f (update a i false) + sumOver J f (update a i true) := by
  unfold sumOver
  rw [Finset.sum_powerset_insert hi]
  congr 1
  · refine Finset.sum_congr rfl fun T hT => congrArg f ?_
    funext j
    have hT' := Finset.mem_powerset.1 hT
    by_cases hj : j = i
    · subst hj
      have : j ∉ T := fun h => hi (hT' h)
      simp [hi, this]
    · simp [hj]
  · refine Finset.sum_congr rfl fun T hT => congrArg f ?_
    funext j
    by_cases hj : j = i
    · subst hj; simp [hi]
    · simp [hj]

theorem sumOver_congr {J : Finset ℕ} {f g : (ℕ → Bool) → ℂ} (h : ∀ a, f a = g a) (a : ℕ → Bool) : sumOver J f a = sumOver J g a := by
  rw [show f = g from funext h]

/-- A factor that does not depend on the indices of the sum. -/
theorem sumOver_mul {J : Finset ℕ} {g : (ℕ → Bool) → ℂ} (hg : ∀ a a', (∀ i, i ∉ J → a i = a' i) → g a = g a') (f : (ℕ → Bool) → ℂ)
    (a : ℕ → Bool) : sumOver J (fun a => f a * g a) a = sumOver J f a * g a := by
  unfold sumOver
  rw [Finset.sum_mul]
  refine Finset.sum_congr rfl fun T _ => ?_
  dsimp only
  rw [hg (fun i => if i ∈ J then decide (i ∈ T) else a i) a fun i hi => by simp [hi]]

theorem sumOver_agree {J K : Finset ℕ} {f : (ℕ → Bool) → ℂ} (hf : ∀ a a', (∀ i ∈ K, a i = a' i) → f a = f a') {a a' : ℕ → Bool}
    (h : ∀ i ∈ K, i ∉ J → a i = a' i) : sumOver J f a = sumOver J f a' := by
  unfold sumOver
  refine Finset.sum_congr rfl fun T _ => hf _ _ fun i hi => ?_
  by_cases hj : i ∈ J
  · simp [hj]
  · simp [hj, h i hi hj]

theorem sumOver_union {J K : Finset ℕ} (h : Disjoint J K) (f : (ℕ → Bool) → ℂ) (a : ℕ → Bool) :
    sumOver (J ∪ K) f a = sumOver K (sumOver J f) a := by
  induction K using Finset.induction_on generalizing a with
  | empty => rw [Finset.union_empty, sumOver_empty]
  | insert k K hk ih =>
    have hd : Disjoint J K := Finset.disjoint_of_subset_right (Finset.subset_insert _ _) h
    have hkJ : k ∉ J := fun hc => (Finset.disjoint_left.1 h) hc (Finset.mem_insert_self _ _)
    rw [Finset.union_insert, sumOver_insert (by simp [hk, hkJ]), sumOver_insert hk, ih hd, ih hd]

/-- Renaming the summed indices. -/
theorem sumOver_image {J : Finset ℕ} {ρ : ℕ → ℕ} (hρ : Set.InjOn ρ J) (f : (ℕ → Bool) → ℂ) (a : ℕ → Bool) :
    sumOver (J.image ρ) f a = sumOver J (fun c => f fun i => if i ∈ J.image ρ then
      decide (∃ j ∈ J, ρ j = i ∧ c j = true) else a i) a := by
  unfold sumOver
  symm
  refine Finset.sum_bij (fun T _ => T.image ρ) ?_ ?_ ?_ ?_
  · intro T hT
    exact Finset.mem_powerset.2 (Finset.image_subset_image (Finset.mem_powerset.1 hT))
  · intro T hT T' hT' he
    have h1 := Finset.mem_powerset.1 hT
    have h2 := Finset.mem_powerset.1 hT'
    ext x
    constructor
    · intro hx
      have : ρ x ∈ T'.image ρ := he ▸ Finset.mem_image_of_mem ρ hx
      obtain ⟨y, hy, hxy⟩ := Finset.mem_image.1 this
      rwa [← hρ (h2 hy) (h1 hx) hxy]
    · intro hx
      have : ρ x ∈ T.image ρ := he ▸ Finset.mem_image_of_mem ρ hx
      obtain ⟨y, hy, hxy⟩ := Finset.mem_image.1 this
      rwa [← hρ (h1 hy) (h2 hx) hxy]
  · intro T hT
    refine ⟨J.filter fun j => ρ j ∈ T, by simp, ?_⟩
    ext x
    simp only [Finset.mem_image, Finset.mem_filter]
    constructor
    · rintro ⟨y, ⟨-, hy⟩, rfl⟩; exact hy
    · intro hx
      obtain ⟨y, hy, rfl⟩ := Finset.mem_image.1 (Finset.mem_powerset.1 hT hx)
      exact ⟨y, ⟨hy, hx⟩, rfl⟩
  · intro T hT
    have h1 := Finset.mem_powerset.1 hT
    refine congrArg f (funext fun i => ?_)
    by_cases hi : i ∈ J.image ρ
    · simp only [hi, if_true]
      refine decide_eq_decide.2 ?_
      rw [Finset.mem_image]
      constructor
      · rintro ⟨j, hj, rfl, hc⟩
        simp only [hj, if_true, decide_eq_true_eq] at hc
        exact ⟨j, hc, rfl⟩
      · rintro ⟨j, hj, rfl⟩
        exact ⟨j, h1 hj, rfl, by simp [h1 hj, hj]⟩
    · simp only [hi, if_false]

/-- Summing over the value of an index of which the product fixes the value. -/
theorem sumOver_insert_delta {J : Finset ℕ} {i : ℕ} (hi : i ∉ J) (f : (ℕ → Bool) → ℂ) (x : Bool) (a : ℕ → Bool) :
    sumOver (insert i J) (fun a => f a * if a i = x then 1 else 0) a = sumOver J f (update a i x) := by
  have hg : ∀ a a' : ℕ → Bool, (∀ j, j ∉ J → a j = a' j) → (if a i = x then (1 : ℂ) else 0) = if a' i = x then 1 else 0 := by
    intro a a' h
    rw [h i hi]
  rw [sumOver_insert hi, sumOver_mul hg, sumOver_mul hg]
  cases x <;> simp

/-! ### Values of networks -/

/-- The product of the tensors at an assignment of the indices. -/
noncomputable def netVal (ts : List QTensor) (a : ℕ → Bool) : ℂ := (ts.map fun t => t.val a).prod

theorem netVal_append (ts ts' : List QTensor) (a : ℕ → Bool) : netVal (ts ++ ts') a = netVal ts a * netVal ts' a := by
  simp [netVal]

@[simp] theorem netVal_nil (a : ℕ → Bool) : netVal [] a = 1 := rfl

@[simp] theorem netVal_cons (t : QTensor) (ts : List QTensor) (a : ℕ → Bool) : netVal (t :: ts) a = t.val a * netVal ts a := by
  simp [netVal]

theorem mem_allInds {ts : List QTensor} {i : ℕ} : i ∈ allInds ts ↔ ∃ t ∈ ts, i ∈ t.inds := by
  simp [allInds]

theorem QTensor.val_congr {t : QTensor} {a a' : ℕ → Bool} (h : ∀ i ∈ t.inds, a i = a' i) : t.val a = t.val a' := by
  unfold QTensor.val
  rw [List.map_congr_left h]

theorem netVal_congr {ts : List QTensor} {a a' : ℕ → Bool} (h : ∀ i ∈ allInds ts, a i = a' i) : netVal ts a = netVal ts a' := by
  unfold netVal
  rw [List.map_congr_left fun t ht => QTensor.val_congr fun i hi => h i (mem_allInds.2 ⟨t, ht, hi⟩)]

theorem contractAll_eq (ts : List QTensor) (a : ℕ → Bool) : contractAll ts = sumOver (allInds ts) (netVal ts) a := by
  unfold contractAll sumOver
  refine Finset.sum_congr rfl fun T _ => ?_
  exact netVal_congr fun i hi => by simp [hi]

theorem netVal_closeFirst (i : ℕ) (ts : List QTensor) (a : ℕ → Bool) : netVal (closeFirst i ts) a = netVal ts a := by
  induction ts with
  | nil => rfl
  | cons t ts ih =>
    unfold closeFirst
    split
    · simp [QTensor.val]
    · simp [ih]

theorem inds_closeFirst (i : ℕ) (ts : List QTensor) : (closeFirst i ts).map QTensor.inds = ts.map QTensor.inds := by
  induction ts with
  | nil => rfl
  | cons t ts ih =>
    unfold closeFirst
    split
    · simp
    · simp [ih]

theorem allInds_eq (ts : List QTensor) : allInds ts = (ts.map QTensor.inds).flatten.toFinset := by
  unfold allInds; rw [List.flatMap_def]

theorem indCount_eq (ts : List QTensor) (i : ℕ) : indCount ts i = (ts.map QTensor.inds).countP fun l => i ∈ l := by
  unfold indCount; rw [List.countP_map]; rfl

theorem allInds_closeFirst (i : ℕ) (ts : List QTensor) : allInds (closeFirst i ts) = allInds ts := by
  rw [allInds_eq, allInds_eq, inds_closeFirst]

theorem indCount_closeFirst (i j : ℕ) (ts : List QTensor) : indCount (closeFirst i ts) j = indCount ts j := by
  rw [indCount_eq, indCount_eq, inds_closeFirst]

theorem allInds_append (ts ts' : List QTensor) : allInds (ts ++ ts') = allInds ts ∪ allInds ts' := by
  ext i; simp only [Finset.mem_union, mem_allInds, List.mem_append]
  constructor
  · rintro ⟨t, h | h, hi⟩
    exacts [Or.inl ⟨t, h, hi⟩, Or.inr ⟨t, h, hi⟩]
  · rintro (⟨t, h, hi⟩ | ⟨t, h, hi⟩)
    exacts [⟨t, Or.inl h, hi⟩, ⟨t, Or.inr h, hi⟩]

theorem indCount_append (ts ts' : List QTensor) (i : ℕ) : indCount (ts ++ ts') i = indCount ts i + indCount ts' i := by
  simp [indCount]

theorem mem_allInds_iff_count {ts : List QTensor} {i : ℕ} : i ∈ allInds ts ↔ 1 ≤ indCount ts i := by
  rw [mem_allInds, indCount, Nat.one_le_iff_ne_zero, ← Nat.pos_iff_ne_zero, List.countP_pos_iff]
  simp

/-- The dangling index of a node. -/
def TensorNet.d (tn : TensorNet) (n : ℕ) : ℕ := (tn.dangling.get? n).getD 0

/-- The network represents the state `ψ` of the nodes `L`; `J` are its inner indices. -/
structure Represents (tn : TensorNet) (L : Finset ℕ) (J : Finset ℕ) (ψ : QState) : Prop where
  dang : ∀ n ∈ L, tn.dangling.get? n = some (tn.d n)
  inj : ∀ n ∈ L, ∀ m ∈ L, tn.d n = tn.d m → n = m
  notJ : ∀ n ∈ L, tn.d n ∉ J
  freshJ : ∀ i ∈ J, i < tn.fresh
  freshD : ∀ n ∈ L, tn.d n < tn.fresh
  inds : ∀ i ∈ allInds tn.tensors, i ∈ J ∨ ∃ n ∈ L, tn.d n = i
  occ1 : ∀ n ∈ L, indCount tn.tensors (tn.d n) = 1
  occ2 : ∀ i ∈ J, 2 ≤ indCount tn.tensors i
  val : ∀ a b : ℕ → Bool, (∀ n ∈ L, a (tn.d n) = b n) → sumOver J (netVal tn.tensors) a = ψ b

namespace Represents

variable {tn : TensorNet} {L J : Finset ℕ} {ψ : QState}

theorem dang_ok (h : Represents tn L J ψ) {n : ℕ} (hn : n ∈ L) : tn.dang n = .ok (tn.d n) := by
  unfold TensorNet.dang; rw [h.dang n hn]

theorem fresh_inds (h : Represents tn L J ψ) {i : ℕ} (hi : i ∈ allInds tn.tensors) : i < tn.fresh := by
  rcases h.inds i hi with hj | ⟨n, hn, rfl⟩
  exacts [h.freshJ i hj, h.freshD n hn]

theorem count_ge (h : Represents tn L J ψ) {i : ℕ} (hi : tn.fresh ≤ i) : indCount tn.tensors i = 0 := by
  by_contra hc
  exact absurd (h.fresh_inds (mem_allInds_iff_count.2 (Nat.one_le_iff_ne_zero.2 hc))) (by omega)

/-- An assignment of the indices that gives the bits `b` to the nodes of `L`. -/
theorem exists_assign (h : Represents tn L J ψ) (b : Basis) : ∃ a : ℕ → Bool, ∀ n ∈ L, a (tn.d n) = b n := by
  refine ⟨fun i => decide (∃ n ∈ L, tn.d n = i ∧ b n = true), fun n hn => ?_⟩
  cases hb : b n
  · refine decide_eq_false ?_
    rintro ⟨m, hm, he, hbm⟩
    rw [h.inj m hm n hn he, hb] at hbm
    cases hbm
  · exact decide_eq_true ⟨n, hn, rfl, hb⟩

/-- The state only depends on the bits of the nodes of `L`. -/
theorem state_congr (h : Represents tn L J ψ) {b b' : Basis} (hb : ∀ n ∈ L, b n = b' n) : ψ b = ψ b' := by
  obtain ⟨a, ha⟩ := h.exists_assign b
  rw [← h.val a b ha, ← h.val a b' fun n hn => (ha n hn).trans (hb n hn)]

theorem congr_state {φ : QState} (h : Represents tn L J ψ) (he : ψ = φ) : Represents tn L J φ := he ▸ h

/-- The assignment with another value of the dangling index of a node. -/
theorem update_assign (h : Represents tn L J ψ) {n : ℕ} (hn : n ∈ L) {a : ℕ → Bool} {b : Basis} (hab : ∀ m ∈ L, m ≠ n → a (tn.d m) = b m)
    (x : Bool) : ∀ m ∈ L, update a (tn.d n) x (tn.d m) = update b n x m := by
  intro m hm
  by_cases hmn : m = n
  · subst hmn; simp
  · rw [update_of_ne (fun hc => hmn (h.inj m hm n hn hc)), update_of_ne hmn, hab m hm hmn]

end Represents

end Graphix
