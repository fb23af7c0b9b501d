import Verif.Proofs.TensorNet

/-!
# The operations on tensor networks, on the represented states
-/

namespace Graphix

open Function

theorem indCount_one (t : QTensor) (i : ℕ) : indCount [t] i = if i ∈ t.inds then 1 else 0 := by
  simp [indCount, List.countP_cons]

theorem d_set (dn : PyDict ℕ ℕ) (ts : List QTensor) (f n i m : ℕ) (o : Option (List ℕ)) :
    TensorNet.d ⟨ts, f, dn.set n i, o⟩ m = if m = n then i else (dn.get? m).getD 0 := by
  unfold TensorNet.d
  rw [PyDict.get?_set]
  by_cases h : m = n
  · subst h; simp
  · rw [if_neg (fun hc => h hc.symm), if_neg h]

/-- The factors of CZ. -/
def CzFactors (A B : Bool → Bool → Bool → ℂ) : Prop :=
  ∀ x x' y y', A x x' false * B false y y' + A x x' true * B true y y' = if x = x' ∧ y = y' then (if x && y then -1 else 1) else 0

namespace Represents

variable {tn : TensorNet} {L J : Finset ℕ} {ψ : QState}

/-- The empty network represents the scalar 1. -/
theorem empty (o : Option (List ℕ)) : Represents (TensorNet.empty o) ∅ ∅ (fun _ => 1) where
  dang := by simp
  inj := by simp
  notJ := by simp
  freshJ := by simp
  freshD := by simp
  inds := by simp [TensorNet.empty, allInds]
  occ1 := by simp
  occ2 := by simp
  val := fun a b _ => by rw [sumOver_empty]; rfl

theorem addVec (h : Represents tn L J ψ) {n : ℕ} (hn : n ∉ L) (v : Bool → ℂ) (o : Bool) :
    Represents { tn with tensors := tn.tensors ++ [vecTensor v tn.fresh n o], fresh := tn.fresh + 1, dangling := tn.dangling.set n tn.fresh }
      (insert n L) J (prep n v ψ) := by
  obtain ⟨ts, f, dn, out⟩ := tn
  have hd : ∀ m, TensorNet.d ⟨ts ++ [vecTensor v f n o], f + 1, dn.set n f, out⟩ m = if m = n then f else TensorNet.d ⟨ts, f, dn, out⟩ m :=
    fun m => d_set _ _ _ _ _ _ _
  have hne : ∀ m ∈ L, m ≠ n := fun m hm hc => hn (hc ▸ hm)
  have hL : ∀ m ∈ L, TensorNet.d ⟨ts ++ [vecTensor v f n o], f + 1, dn.set n f, out⟩ m = TensorNet.d ⟨ts, f, dn, out⟩ m :=
    fun m hm => by rw [hd, if_neg (hne m hm)]
  have hn' : TensorNet.d ⟨ts ++ [vecTensor v f n o], f + 1, dn.set n f, out⟩ n = f := by rw [hd, if_pos rfl]
  have hfd : ∀ m ∈ L, TensorNet.d ⟨ts, f, dn, out⟩ m < f := h.freshD
  have hfJ : ∀ i ∈ J, i < f := h.freshJ
  dsimp only
  constructor
  · intro m hm
    rcases Finset.mem_insert.1 hm with rfl | hm
    · rw [hn']; exact PyDict.get?_set_self _ _ _
    · rw [hL m hm, ← h.dang m hm]; exact PyDict.get?_set_ne _ _ (hne m hm).symm
  · intro m hm k hk
    rcases Finset.mem_insert.1 hm with rfl | hm' <;> rcases Finset.mem_insert.1 hk with rfl | hk'
    · exact fun _ => rfl
    · rw [hn', hL k hk']; intro hc; have := hfd k hk'; omega
    · rw [hn', hL m hm']; intro hc; have := hfd m hm'; omega
    · rw [hL m hm', hL k hk']; exact h.inj m hm' k hk'
  · intro m hm
    rcases Finset.mem_insert.1 hm with rfl | hm
    · rw [hn']; intro hc; exact absurd (hfJ _ hc) (by omega)
    · rw [hL m hm]; exact h.notJ m hm
  · intro i hi; have := hfJ i hi; dsimp only; omega
  · intro m hm
    rcases Finset.mem_insert.1 hm with rfl | hm
    · rw [hn']; dsimp only; omega
    · rw [hL m hm]; have := hfd m hm; dsimp only; omega
  · intro i hi
    rw [allInds_append, Finset.mem_union] at hi
    rcases hi with hi | hi
    · rcases h.inds i hi with hj | ⟨m, hm, hdm⟩
      · exact Or.inl hj
      · exact Or.inr ⟨m, Finset.mem_insert_of_mem hm, by rw [hL m hm, hdm]⟩
    · simp [allInds, vecTensor] at hi
      exact Or.inr ⟨n, Finset.mem_insert_self _ _, by rw [hn', hi]⟩
  · intro m hm
    rw [indCount_append, indCount_one]
    rcases Finset.mem_insert.1 hm with rfl | hm
    · rw [hn', show indCount ts f = 0 from h.count_ge (le_refl f)]; simp [vecTensor]
    · rw [hL m hm, h.occ1 m hm]
      have := hfd m hm
      rw [if_neg]
      simp only [vecTensor, List.mem_singleton]; omega
  · intro i hi
    rw [indCount_append]; exact le_trans (h.occ2 i hi) (Nat.le_add_right _ _)
  · intro a b hab
    have hf : f ∉ J := fun hc => absurd (hfJ _ hc) (by omega)
    have e : ∀ a, netVal (ts ++ [vecTensor v f n o]) a = netVal ts a * v (a f) := by
      intro a; rw [netVal_append]; simp [QTensor.val, vecTensor]
    rw [sumOver_congr e, sumOver_mul (fun a a' haa => by rw [haa f hf])]
    have := h.val a b fun m hm => by rw [← hab m (Finset.mem_insert_of_mem hm), hL m hm]
    rw [show sumOver J (netVal ts) a = ψ b from this]
    have hb := hab n (Finset.mem_insert_self _ _)
    rw [hn'] at hb
    rw [hb, prep, mul_comm]

theorem evolve1 (h : Represents tn L J ψ) {n : ℕ} (hn : n ∈ L) (U : Mat2) :
    Represents { tn with
      tensors := closeFirst (tn.d n) tn.tensors ++ [matTensor U tn.fresh (tn.d n) n], fresh := tn.fresh + 1, dangling := tn.dangling.set n tn.fresh }
      L (insert (tn.d n) J) (op1 U n ψ) := by
  obtain ⟨ts, f, dn, out⟩ := tn
  set D := TensorNet.d ⟨ts, f, dn, out⟩ with hD
  set tn' : TensorNet := ⟨closeFirst (D n) ts ++ [matTensor U f (D n) n], f + 1, dn.set n f, out⟩ with htn'
  have hd : ∀ m, tn'.d m = if m = n then f else D m := fun m => d_set _ _ _ _ _ _ _
  have hL : ∀ m, m ≠ n → tn'.d m = D m := fun m hm => by rw [hd, if_neg hm]
  have hn' : tn'.d n = f := by rw [hd, if_pos rfl]
  have hfd : ∀ m ∈ L, D m < f := h.freshD
  have hfJ : ∀ i ∈ J, i < f := h.freshJ
  have hDn := hfd n hn
  constructor
  · intro m hm
    by_cases hmn : m = n
    · subst hmn; rw [hn']; exact PyDict.get?_set_self _ _ _
    · rw [hL m hmn]
      have := h.dang m hm
      rw [← hD] at this
      rw [← this]; exact PyDict.get?_set_ne _ _ (Ne.symm hmn)
  · intro m hm k hk
    by_cases hmn : m = n <;> by_cases hkn : k = n
    · intro _; rw [hmn, hkn]
    · rw [hmn, hn', hL k hkn]; intro hc; have := hfd k hk; omega
    · rw [hkn, hn', hL m hmn]; intro hc; have := hfd m hm; omega
    · rw [hL m hmn, hL k hkn]; exact h.inj m hm k hk
  · intro m hm
    rw [Finset.mem_insert, not_or]
    by_cases hmn : m = n
    · subst hmn; rw [hn']; exact ⟨by omega, fun hc => absurd (hfJ _ hc) (by omega)⟩
    · rw [hL m hmn]; exact ⟨fun hc => hmn (h.inj m hm n hn hc), h.notJ m hm⟩
  · intro i hi
    rcases Finset.mem_insert.1 hi with rfl | hi
    · dsimp only [tn']; omega
    · have := hfJ i hi; dsimp only [tn']; omega
  · intro m hm
    by_cases hmn : m = n
    · subst hmn; rw [hn']; dsimp only [tn']; omega
    · rw [hL m hmn]; have := hfd m hm; dsimp only [tn']; omega
  · intro i hi
    dsimp only [tn'] at hi
    rw [allInds_append, allInds_closeFirst, Finset.mem_union] at hi
    rcases hi with hi | hi
    · rcases h.inds i hi with hj | ⟨m, hm, hdm⟩
      · exact Or.inl (Finset.mem_insert_of_mem hj)
      · by_cases hmn : m = n
        · subst hmn; exact Or.inl (Finset.mem_insert.2 (Or.inl hdm.symm))
        · exact Or.inr ⟨m, hm, by rw [hL m hmn, ← hdm]⟩
    · simp only [allInds, matTensor, List.flatMap_cons, List.flatMap_nil, List.append_nil, List.mem_toFinset, List.mem_cons, List.not_mem_nil,
        or_false] at hi
      rcases hi with rfl | rfl
      · exact Or.inr ⟨n, hn, hn'⟩
      · exact Or.inl (Finset.mem_insert_self _ _)
  · intro m hm
    dsimp only [tn']
    rw [indCount_append, indCount_one, indCount_closeFirst]
    change indCount ts (tn'.d m) + (if tn'.d m ∈ [f, D n] then 1 else 0) = 1
    by_cases hmn : m = n
    · subst hmn
      rw [hn', show indCount ts f = 0 from h.count_ge (le_refl f)]; simp
    · rw [hL m hmn, show indCount ts (D m) = 1 from h.occ1 m hm, if_neg]
      have := hfd m hm
      simp only [List.mem_cons, List.not_mem_nil, or_false, not_or]
      exact ⟨by omega, fun hc => hmn (h.inj m hm n hn hc)⟩
  · intro i hi
    dsimp only [tn']
    rw [indCount_append, indCount_one, indCount_closeFirst]
    change 2 ≤ indCount ts i + (if i ∈ [f, D n] then 1 else 0)
    rcases Finset.mem_insert.1 hi with rfl | hi
    · rw [show indCount ts (D n) = 1 from h.occ1 n hn]; simp
    · exact le_trans (h.occ2 i hi) (Nat.le_add_right _ _)
  · intro a b hab
    have hf : f ∉ J := fun hc => absurd (hfJ _ hc) (by omega)
    have hDJ : D n ∉ J := h.notJ n hn
    have e : ∀ a, netVal tn'.tensors a = netVal ts a * U (a f) (a (D n)) := by
      intro a
      change netVal (closeFirst (D n) ts ++ [matTensor U f (D n) n]) a = _
      rw [netVal_append, netVal_closeFirst]; simp [QTensor.val, matTensor]
    rw [sumOver_congr e, sumOver_insert hDJ, sumOver_mul (fun a a' haa => by rw [haa f hf, haa _ hDJ]),
      sumOver_mul (fun a a' haa => by rw [haa f hf, haa _ hDJ])]
    have hb := hab n hn
    rw [hn'] at hb
    have hv : ∀ x, sumOver J (netVal ts) (update a (D n) x) = ψ (update b n x) := fun x =>
      h.val _ _ (h.update_assign hn (fun m hm hmn => by rw [← hab m hm, hL m hmn]) x)
    have hu : ∀ x, update a (D n) x f = b n := fun x => by rw [update_of_ne (by omega), hb]
    simp only [hv, hu, update_self, op1]
    ring

theorem project1 (h : Represents tn L J ψ) {n : ℕ} (hn : n ∈ L) (v : Bool → ℂ) :
    Represents { tn with tensors := closeFirst (tn.d n) tn.tensors ++ [(vecTensor v (tn.d n) n false).conj] }
      (L.erase n) (insert (tn.d n) J) (projOut n v ψ) := by
  obtain ⟨ts, f, dn, out⟩ := tn
  set D := TensorNet.d ⟨ts, f, dn, out⟩ with hD
  have hd : TensorNet.d ⟨closeFirst (D n) ts ++ [(vecTensor v (D n) n false).conj], f, dn, out⟩ = D := rfl
  have hin : ∀ m ∈ L.erase n, m ∈ L ∧ m ≠ n := fun m hm => ⟨Finset.mem_of_mem_erase hm, Finset.ne_of_mem_erase hm⟩
  have hDn : D n < f := h.freshD n hn
  dsimp only
  constructor
  · intro m hm; exact h.dang m (hin m hm).1
  · intro m hm k hk; exact h.inj m (hin m hm).1 k (hin k hk).1
  · intro m hm
    rw [Finset.mem_insert, not_or, hd]
    exact ⟨fun hc => (hin m hm).2 (h.inj m (hin m hm).1 n hn hc), h.notJ m (hin m hm).1⟩
  · intro i hi
    rcases Finset.mem_insert.1 hi with rfl | hi
    · exact hDn
    · exact h.freshJ i hi
  · intro m hm; exact h.freshD m (hin m hm).1
  · intro i hi
    dsimp only at hi
    rw [allInds_append, allInds_closeFirst, Finset.mem_union] at hi
    rw [hd]
    rcases hi with hi | hi
    · rcases h.inds i hi with hj | ⟨m, hm, hdm⟩
      · exact Or.inl (Finset.mem_insert_of_mem hj)
      · by_cases hmn : m = n
        · subst hmn; exact Or.inl (Finset.mem_insert.2 (Or.inl hdm.symm))
        · exact Or.inr ⟨m, Finset.mem_erase.2 ⟨hmn, hm⟩, hdm⟩
    · simp only [allInds, QTensor.conj, vecTensor, List.flatMap_cons, List.flatMap_nil, List.append_nil, List.mem_toFinset, List.mem_cons,
        List.not_mem_nil, or_false] at hi
      exact Or.inl (Finset.mem_insert.2 (Or.inl hi))
  · intro m hm
    dsimp only
    rw [indCount_append, indCount_one, indCount_closeFirst, hd]
    change indCount ts (D m) + (if D m ∈ [D n] then 1 else 0) = 1
    rw [show indCount ts (D m) = 1 from h.occ1 m (hin m hm).1, if_neg]
    simp only [List.mem_singleton]
    exact fun hc => (hin m hm).2 (h.inj m (hin m hm).1 n hn hc)
  · intro i hi
    dsimp only
    rw [indCount_append, indCount_one, indCount_closeFirst]
    change 2 ≤ indCount ts i + (if i ∈ [D n] then 1 else 0)
    rcases Finset.mem_insert.1 hi with rfl | hi
    · rw [show indCount ts (D n) = 1 from h.occ1 n hn]; simp
    · exact le_trans (h.occ2 i hi) (Nat.le_add_right _ _)
  · intro a b hab
    rw [hd] at hab
    have hDJ : D n ∉ J := h.notJ n hn
    have e : ∀ a, netVal (closeFirst (D n) ts ++ [(vecTensor v (D n) n false).conj]) a = netVal ts a * star (v (a (D n))) := by
      intro a
      rw [netVal_append, netVal_closeFirst]; simp [QTensor.val, vecTensor, QTensor.conj]
    rw [sumOver_congr e, sumOver_insert hDJ, sumOver_mul (fun a a' haa => by rw [haa _ hDJ]), sumOver_mul (fun a a' haa => by rw [haa _ hDJ])]
    have hv : ∀ x, sumOver J (netVal ts) (update a (D n) x) = ψ (update b n x) := fun x =>
      h.val _ _ (h.update_assign hn (fun m hm hmn => hab m (Finset.mem_erase.2 ⟨hmn, hm⟩)) x)
    rw [hv, hv, update_self, update_self, projOut]
    ring

theorem entangle (h : Represents tn L J ψ) {u w : ℕ} (hu : u ∈ L) (hw : w ∈ L) (huw : u ≠ w) {A B : Bool → Bool → Bool → ℂ}
    (hAB : CzFactors A B) :
    Represents { tn with
      tensors := closeFirst (tn.d w) (closeFirst (tn.d u) tn.tensors) ++
        [cubeTensor A tn.fresh (tn.d u) (tn.fresh + 2) u, cubeTensor B (tn.fresh + 2) (tn.fresh + 1) (tn.d w) w]
      fresh := tn.fresh + 3
      dangling := (tn.dangling.set u tn.fresh).set w (tn.fresh + 1) }
      L (insert (tn.d u) (insert (tn.d w) (insert (tn.fresh + 2) J))) (cz u w ψ) := by
  obtain ⟨ts, f, dn, out⟩ := tn
  set D := TensorNet.d ⟨ts, f, dn, out⟩ with hD
  set tn' : TensorNet := ⟨closeFirst (D w) (closeFirst (D u) ts) ++ [cubeTensor A f (D u) (f + 2) u, cubeTensor B (f + 2) (f + 1) (D w) w],
    f + 3, (dn.set u f).set w (f + 1), out⟩ with htn'
  have hd : ∀ m, tn'.d m = if m = w then f + 1 else if m = u then f else D m := by
    intro m
    rw [htn', d_set]
    by_cases h1 : m = w
    · rw [if_pos h1, if_pos h1]
    · rw [if_neg h1, if_neg h1]; exact d_set _ [] 0 _ _ _ none
  have hL : ∀ m, m ≠ u → m ≠ w → tn'.d m = D m := fun m hm hm' => by rw [hd, if_neg hm', if_neg hm]
  have hu' : tn'.d u = f := by rw [hd, if_neg huw, if_pos rfl]
  have hw' : tn'.d w = f + 1 := by rw [hd, if_pos rfl]
  have hfd : ∀ m ∈ L, D m < f := h.freshD
  have hfJ : ∀ i ∈ J, i < f := h.freshJ
  have hDu := hfd u hu
  have hDw := hfd w hw
  have hDuw : D u ≠ D w := fun hc => huw (h.inj u hu w hw hc)
  have hcase : ∀ m, m = u ∨ m = w ∨ (m ≠ u ∧ m ≠ w) := fun m => by tauto
  have hmem : ∀ i, i ∈ insert (D u) (insert (D w) (insert (f + 2) J)) ↔ i = D u ∨ i = D w ∨ i = f + 2 ∨ i ∈ J := by
    intro i; simp only [Finset.mem_insert]
  have hval : ∀ i, indCount tn'.tensors i = indCount ts i + ((if i ∈ [f, D u, f + 2] then 1 else 0) + (if i ∈ [f + 2, f + 1, D w] then 1 else 0)) := by
    intro i
    dsimp only [tn']
    rw [indCount_append, indCount_closeFirst, indCount_closeFirst, ← List.singleton_append, indCount_append, indCount_one, indCount_one]
    rfl
  dsimp only
  constructor
  · intro m hm
    change ((dn.set u f).set w (f + 1)).get? m = _
    rcases hcase m with rfl | rfl | ⟨h1, h2⟩
    · rw [hu', PyDict.get?_set_ne _ _ huw.symm, PyDict.get?_set_self]
    · rw [hw', PyDict.get?_set_self]
    · rw [hL m h1 h2, PyDict.get?_set_ne _ _ h2.symm, PyDict.get?_set_ne _ _ h1.symm]; exact h.dang m hm
  · intro m hm k hk
    have := hfd m hm
    have := hfd k hk
    rcases hcase m with rfl | rfl | ⟨h1, h2⟩ <;> rcases hcase k with rfl | rfl | ⟨h3, h4⟩
    · exact fun _ => rfl
    · rw [hu', hw']; intro hc; omega
    · rw [hu', hL k h3 h4]; intro hc; omega
    · rw [hu', hw']; intro hc; omega
    · exact fun _ => rfl
    · rw [hw', hL k h3 h4]; intro hc; omega
    · rw [hu', hL m h1 h2]; intro hc; omega
    · rw [hw', hL m h1 h2]; intro hc; omega
    · rw [hL m h1 h2, hL k h3 h4]; exact h.inj m hm k hk
  · intro m hm hc
    rw [hmem] at hc
    have hJf : ∀ k, f ≤ k → k ∉ J := fun k hk hc => absurd (hfJ k hc) (by omega)
    rcases hcase m with rfl | rfl | ⟨h1, h2⟩
    · rw [hu'] at hc
      rcases hc with hc | hc | hc | hc
      · omega
      · omega
      · omega
      · exact hJf _ (le_refl _) hc
    · rw [hw'] at hc
      rcases hc with hc | hc | hc | hc
      · omega
      · omega
      · omega
      · exact hJf _ (by omega) hc
    · rw [hL m h1 h2] at hc
      have := hfd m hm
      rcases hc with hc | hc | hc | hc
      · exact h1 (h.inj m hm u hu hc)
      · exact h2 (h.inj m hm w hw hc)
      · omega
      · exact h.notJ m hm hc
  · intro i hi
    change i < f + 3
    rw [hmem] at hi
    rcases hi with rfl | rfl | rfl | hi
    · omega
    · omega
    · omega
    · have := hfJ i hi; omega
  · intro m hm
    change tn'.d m < f + 3
    rcases hcase m with rfl | rfl | ⟨h1, h2⟩
    · rw [hu']; omega
    · rw [hw']; omega
    · rw [hL m h1 h2]; have := hfd m hm; omega
  · intro i hi
    rw [hmem]
    rw [mem_allInds_iff_count, hval] at hi
    by_cases h0 : i ∈ allInds ts
    · rcases h.inds i h0 with hj | ⟨m, hm, hdm⟩
      · tauto
      · change D m = i at hdm
        rcases hcase m with rfl | rfl | ⟨h1, h2⟩
        · exact Or.inl (Or.inl hdm.symm)
        · exact Or.inl (Or.inr (Or.inl hdm.symm))
        · exact Or.inr ⟨m, hm, by rw [hL m h1 h2, hdm]⟩
    · rw [mem_allInds_iff_count] at h0
      by_cases hA : i ∈ [f, D u, f + 2]
      · simp only [List.mem_cons, List.not_mem_nil, or_false] at hA
        rcases hA with rfl | rfl | rfl
        · exact Or.inr ⟨u, hu, hu'⟩
        · tauto
        · tauto
      · by_cases hB : i ∈ [f + 2, f + 1, D w]
        · simp only [List.mem_cons, List.not_mem_nil, or_false] at hB
          rcases hB with rfl | rfl | rfl
          · tauto
          · exact Or.inr ⟨w, hw, hw'⟩
          · tauto
        · rw [if_neg hA, if_neg hB] at hi; omega
  · intro m hm
    rw [hval]
    have := hfd m hm
    rcases hcase m with rfl | rfl | ⟨h1, h2⟩
    · rw [hu', show indCount ts f = 0 from h.count_ge (le_refl f), if_pos (by simp), if_neg (by simp; omega)]
    · rw [hw', show indCount ts (f + 1) = 0 from h.count_ge (Nat.le_succ f), if_neg (by simp; omega), if_pos (by simp)]
    · have e1 : D m ≠ D u := fun hc => h1 (h.inj m hm u hu hc)
      have e2 : D m ≠ D w := fun hc => h2 (h.inj m hm w hw hc)
      rw [hL m h1 h2, show indCount ts (D m) = 1 from h.occ1 m hm, if_neg (by simp [e1]; omega), if_neg (by simp [e2]; omega)]
  · intro i hi
    rw [hval]
    rw [hmem] at hi
    rcases hi with rfl | rfl | rfl | hi
    · rw [show indCount ts (D u) = 1 from h.occ1 u hu, if_pos (by simp)]; omega
    · rw [show indCount ts (D w) = 1 from h.occ1 w hw, if_pos (show D w ∈ [f + 2, f + 1, D w] by simp)]; omega
    · rw [if_pos (by simp), if_pos (by simp)]; omega
    · have := h.occ2 i hi
      change 2 ≤ indCount ts i at this
      omega
  · intro a b hab
    have hJf : ∀ k, f ≤ k → k ∉ J := fun k hk hc => absurd (hfJ k hc) (by omega)
    have hDuJ : D u ∉ J := h.notJ u hu
    have hDwJ : D w ∉ J := h.notJ w hw
    have hfJ0 : f ∉ J := hJf f (le_refl f)
    have hfJ1 : f + 1 ∉ J := hJf _ (by omega)
    have hfJ2 : f + 2 ∉ J := hJf _ (by omega)
    have e : ∀ a, netVal tn'.tensors a = netVal ts a * (A (a f) (a (D u)) (a (f + 2)) * B (a (f + 2)) (a (f + 1)) (a (D w))) := by
      intro a
      change netVal (closeFirst (D w) (closeFirst (D u) ts) ++ [_, _]) a = _
      rw [netVal_append, netVal_closeFirst, netVal_closeFirst]; simp [QTensor.val, cubeTensor]
    have hg : ∀ a a' : ℕ → Bool, (∀ i, i ∉ J → a i = a' i) → A (a f) (a (D u)) (a (f + 2)) * B (a (f + 2)) (a (f + 1)) (a (D w)) =
        A (a' f) (a' (D u)) (a' (f + 2)) * B (a' (f + 2)) (a' (f + 1)) (a' (D w)) := by
      intro a a' haa
      rw [haa _ hDuJ, haa _ hDwJ, haa _ hfJ0, haa _ hfJ1, haa _ hfJ2]
    have hbu := hab u hu
    have hbw := hab w hw
    rw [hu'] at hbu
    rw [hw'] at hbw
    rw [sumOver_congr e, sumOver_insert (by rw [Finset.mem_insert, Finset.mem_insert]; push Not; exact ⟨hDuw, by omega, hDuJ⟩)]
    simp only [sumOver_insert (show D w ∉ insert (f + 2) J by rw [Finset.mem_insert]; push Not; exact ⟨by omega, hDwJ⟩), sumOver_insert hfJ2,
      sumOver_mul hg]
    have hv : ∀ x y z, sumOver J (netVal ts) (update (update (update a (D u) x) (D w) y) (f + 2) z) = ψ (update (update b u x) w y) := by
      intro x y z
      refine h.val _ _ fun m hm => ?_
      change update (update (update a (D u) x) (D w) y) (f + 2) z (D m) = _
      have := hfd m hm
      rw [update_of_ne (by omega)]
      refine h.update_assign hw (a := update a (D u) x) (b := update b u x) (fun k hk hkw => ?_) y m hm
      by_cases hku : k = u
      · subst hku; simp [D]
      · change update a (D u) x (D k) = _
        rw [update_of_ne (fun hc => hku (h.inj k hk u hu hc)), update_of_ne hku, ← hab k hk, hL k hku hkw]
    have hA1 : ∀ x y z, update (update (update a (D u) x) (D w) y) (f + 2) z f = b u := by
      intro x y z
      rw [update_of_ne (by omega), update_of_ne (by omega), update_of_ne (by omega), hbu]
    have hA2 : ∀ x y z, update (update (update a (D u) x) (D w) y) (f + 2) z (f + 1) = b w := by
      intro x y z
      rw [update_of_ne (by omega), update_of_ne (by omega), update_of_ne (by omega), hbw]
    have hA3 : ∀ x y z, update (update (update a (D u) x) (D w) y) (f + 2) z (D u) = x := by
      intro x y z
      rw [update_of_ne (by omega), update_of_ne hDuw, update_self]
    have hA4 : ∀ x y z, update (update (update a (D u) x) (D w) y) (f + 2) z (D w) = y := by
      intro x y z
      rw [update_of_ne (by omega), update_self]
    simp only [hv, hA1, hA2, hA3, hA4, update_self, ← mul_add, hAB (b u) _ (b w) _]
    have hbb : ψ (update (update b u (b u)) w (b w)) = ψ b := by simp
    unfold cz
    cases h1 : b u <;> cases h2 : b w <;> rw [h1, h2] at hbb <;> simp [hbb]

end Represents

end Graphix
