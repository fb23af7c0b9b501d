import Verif.Proofs.TensorNetOp
import Verif.Spec.Inner

/-!
# Expectation values of tensor networks
-/

namespace Graphix

open Function

theorem QTensor.reindex_id {t : QTensor} {f : ℕ → ℕ} (h : ∀ i ∈ t.inds, f i = i) : t.reindex f = t := by
  obtain ⟨inds, data, node, o⟩ := t
  unfold QTensor.reindex
  congr 1
  exact (List.map_congr_left h).trans (List.map_id _)

theorem QTensor.reindex_comp (t : QTensor) (f g : ℕ → ℕ) : (t.reindex f).reindex g = t.reindex (g ∘ f) := by
  simp [QTensor.reindex, List.map_map]

/-- Rename one index. -/
def renOne (old new : ℕ) : ℕ → ℕ := fun i => if i = old then new else i

theorem reindexFirst_eq {old new : ℕ} : ∀ {ts : List QTensor}, indCount ts old ≤ 1 →
    TensorNet.reindexFirst old new ts = ts.map fun t => t.reindex (renOne old new)
  | [], _ => rfl
  | t :: ts, h => by
    unfold indCount at h
    rw [List.countP_cons] at h
    unfold TensorNet.reindexFirst
    by_cases ht : old ∈ t.inds
    · rw [if_pos ht, List.map_cons]
      congr 1
      simp only [ht, decide_true, if_true] at h
      have h0 : ts.countP (fun t => decide (old ∈ t.inds)) = 0 := by omega
      rw [List.countP_eq_zero] at h0
      symm
      refine (List.map_congr_left fun t' ht' => QTensor.reindex_id fun i hi => ?_).trans (List.map_id _)
      unfold renOne
      rw [if_neg]
      rintro rfl
      exact h0 t' ht' (by simpa using hi)
    · rw [if_neg ht, List.map_cons, reindexFirst_eq (ts := ts) (by unfold indCount; omega)]
      congr 1
      symm
      refine QTensor.reindex_id fun i hi => ?_
      unfold renOne
      rw [if_neg]
      rintro rfl
      exact ht hi

theorem indCount_reindex {ρ : ℕ → ℕ} {ts : List QTensor} {i : ℕ} (h : ∀ j ∈ allInds ts, ρ j = ρ i → j = i) :
    indCount (ts.map fun t => t.reindex ρ) (ρ i) = indCount ts i := by
  unfold indCount
  rw [List.countP_map]
  refine List.countP_congr fun t ht => ?_
  simp only [comp_apply, QTensor.reindex, decide_eq_true_eq, List.mem_map]
  constructor
  · rintro ⟨j, hj, he⟩
    exact h j (mem_allInds.2 ⟨t, ht, hj⟩) he ▸ hj
  · exact fun hi => ⟨i, hi, rfl⟩

/-- Rename the dangling indices of the nodes `l` that are targets. -/
def renNodes (D : ℕ → ℕ) (targets : List ℕ) (new : ℕ) (l : List ℕ) : ℕ → ℕ := fun i =>
  if i ∈ (l.filter fun n => n ∈ targets).map D then new + (targets.map D).idxOf i else i

theorem sumOver_nodes {K : Finset ℕ} {D : ℕ → ℕ} (hD : Set.InjOn D K) (f : (ℕ → Bool) → ℂ) (g : Finset ℕ → ℂ) (a : ℕ → Bool)
    (h : ∀ S ⊆ K, ∀ a' : ℕ → Bool, (∀ n ∈ K, a' (D n) = decide (n ∈ S)) → f a' = g S) :
    sumOver (K.image D) f a = ∑ S ∈ K.powerset, g S := by
  rw [sumOver_image hD]
  unfold sumOver
  refine Finset.sum_congr rfl fun S hS => h S (Finset.mem_powerset.1 hS) _ fun n hn => ?_
  simp only [Finset.mem_image_of_mem D hn, if_true]
  refine decide_eq_decide.2 ⟨?_, ?_⟩
  · rintro ⟨j, hj, he, hc⟩
    rw [if_pos hj, decide_eq_true_eq] at hc
    exact hD hj hn he ▸ hc
  · intro hn'
    exact ⟨n, hn, rfl, by rw [if_pos hn]; simpa using hn'⟩

namespace Represents

variable {tn : TensorNet} {L J : Finset ℕ} {ψ : QState}

theorem openTargets_eq (h : Represents tn L J ψ) {targets : List ℕ} {new : ℕ} (ht : ∀ n ∈ targets, n ∈ L) (hnew : tn.fresh ≤ new) : ∀ {l : List ℕ} {ts : List QTensor},
    l.Nodup → (∀ n ∈ l, n ∈ L) → (∀ n ∈ l, indCount ts (tn.d n) = 1) →
    tn.openTargets targets new l ts = .ok (ts.map fun t => t.reindex (renNodes tn.d targets new l))
  | [], ts, _, _, _ => by
    unfold TensorNet.openTargets
    congr 1
    symm
    exact (List.map_congr_left fun t _ => QTensor.reindex_id fun i _ => by simp [renNodes]).trans (List.map_id _)
  | n :: l, ts, hnd, hl, hc => by
    rw [List.nodup_cons] at hnd
    have hn := hl n (by simp)
    have hl' : ∀ m ∈ l, m ∈ L := fun m hm => hl m (by simp [hm])
    have hne : ∀ m ∈ l, tn.d m ≠ tn.d n := fun m hm he => hnd.1 (h.inj m (hl' m hm) n hn he ▸ hm)
    unfold TensorNet.openTargets
    simp only [h.dang_ok hn, bind, Except.bind]
    by_cases hnt : n ∈ targets
    · rw [if_pos hnt, reindexFirst_eq (by rw [hc n (by simp)]), h.openTargets_eq ht hnew (l := l) hnd.2 hl']
      · rw [List.map_map]
        congr 1
        refine List.map_congr_left fun t _ => ?_
        rw [comp_apply, QTensor.reindex_comp]
        congr 1
        funext i
        rw [comp_apply]
        by_cases hi : i = tn.d n
        · subst hi
          rw [show renOne (tn.d n) (new + targets.idxOf n) (tn.d n) = new + targets.idxOf n by simp [renOne]]
          unfold renNodes
          rw [if_neg, if_pos (by simp [hnt]), h.idxOf_map_d hn ht]
          intro hcc
          obtain ⟨m, hm, he⟩ := List.mem_map.1 hcc
          have := h.freshD m (hl' m (List.mem_filter.1 hm).1)
          omega
        · rw [show renOne (tn.d n) (new + targets.idxOf n) i = i by simp [renOne, hi]]
          unfold renNodes
          congr 1
          simp only [List.filter_cons, hnt, decide_true, if_true, List.map_cons, List.mem_cons, hi, false_or]
      · intro m hm
        have hdm : renOne (tn.d n) (new + targets.idxOf n) (tn.d m) = tn.d m := by simp [renOne, hne m hm]
        have hlt := h.freshD m (hl' m hm)
        have := indCount_reindex (ρ := renOne (tn.d n) (new + targets.idxOf n)) (ts := ts) (i := tn.d m) (by
          intro j _ hj
          rw [hdm] at hj
          unfold renOne at hj
          split at hj
          · omega
          · exact hj)
        rw [hdm] at this
        rw [this]
        exact hc m (by simp [hm])
    · rw [if_neg hnt, h.openTargets_eq ht hnew (l := l) hnd.2 hl' fun m hm => hc m (by simp [hm])]
      congr 1
      refine List.map_congr_left fun t _ => ?_
      congr 1
      funext i
      simp only [renNodes, List.filter_cons, hnt, decide_false, Bool.false_eq_true, if_false]

set_option maxHeartbeats 2000000 in
/-- The contraction of `expectation_value`. -/
theorem expectation_contract (h : Represents tn L J ψ) {l targets : List ℕ} (hnd : l.Nodup) (hL : ∀ n, n ∈ l ↔ n ∈ L) (htn : targets.Nodup)
    (ht : ∀ n ∈ targets, n ∈ L) (A : List Bool → ℂ) (tag : ℕ) (o : Bool) :
    contractAll (combineNets (tn.fresh + 2 * targets.length)
      ((tn.tensors.map fun t => t.reindex (renNodes tn.d targets tn.fresh l)) ++
        [⟨List.range' (tn.fresh + targets.length) targets.length ++ List.range' tn.fresh targets.length, A, tag, o⟩])
      ((tn.tensors.map QTensor.conj).map fun t => t.reindex (renNodes tn.d targets (tn.fresh + targets.length) l))) =
      stateInner l ψ (opN (fun x y => A (x ++ y)) targets ψ) := by
  set f := tn.fresh with hf
  set k := targets.length with hk
  set D := tn.d with hD
  set ts := tn.tensors with hts
  have hL' : l.toFinset = L := by ext n; rw [List.mem_toFinset, hL]
  have hren : ∀ new, renNodes D targets new l = fun i => if i ∈ targets.map D then new + (targets.map D).idxOf i else i := by
    intro new
    funext i
    unfold renNodes
    congr 1
    simp only [List.mem_map, List.mem_filter, decide_eq_true_eq, eq_iff_iff]
    constructor
    · rintro ⟨n, ⟨-, hn⟩, e⟩; exact ⟨n, hn, e⟩
    · rintro ⟨n, hn, e⟩; exact ⟨n, ⟨(hL n).2 (ht n hn), hn⟩, e⟩
  rw [hren, hren]
  set ρL : ℕ → ℕ := fun i => if i ∈ targets.map D then f + (targets.map D).idxOf i else i with hρL
  set ρR : ℕ → ℕ := fun i => if i ∈ targets.map D then f + k + (targets.map D).idxOf i else i with hρR
  set T : QTensor := ⟨List.range' (f + k) k ++ List.range' f k, A, tag, o⟩ with hT
  have hidx : ∀ i ∈ targets.map D, (targets.map D).idxOf i < k := by
    intro i hi
    have := List.idxOf_lt_length_iff.2 hi
    rwa [List.length_map] at this
  have hall : allInds ts = J ∪ L.image D := allInds_rep h
  have hlt : ∀ i ∈ J ∪ L.image D, i < f := fun i hi => h.fresh_inds (by rw [← hts, hall]; exact hi)
  have hJT : ∀ i ∈ J, i ∉ targets.map D := by
    intro i hi hc
    obtain ⟨n, hn, rfl⟩ := List.mem_map.1 hc
    exact h.notJ n (ht n hn) hi
  have hinjρ : ∀ new, f ≤ new → ∀ i ∈ J ∪ L.image D, ∀ j ∈ J ∪ L.image D,
      (if i ∈ targets.map D then new + (targets.map D).idxOf i else i) = (if j ∈ targets.map D then new + (targets.map D).idxOf j else j) → i = j := by
    intro new hnew i hi j hj he
    have h1 := hlt i hi
    have h2 := hlt j hj
    by_cases hiT : i ∈ targets.map D <;> by_cases hjT : j ∈ targets.map D
    · rw [if_pos hiT, if_pos hjT] at he
      exact (List.idxOf_inj hiT).1 (by omega)
    · rw [if_pos hiT, if_neg hjT] at he; omega
    · rw [if_neg hiT, if_pos hjT] at he; omega
    · rwa [if_neg hiT, if_neg hjT] at he
  have hinjL : ∀ i ∈ J ∪ L.image D, ∀ j ∈ J ∪ L.image D, ρL i = ρL j → i = j := hinjρ f (le_refl _)
  have hinjR : ∀ i ∈ J ∪ L.image D, ∀ j ∈ J ∪ L.image D, ρR i = ρR j → i = j := hinjρ (f + k) (Nat.le_add_right _ _)
  have hallc : allInds (ts.map QTensor.conj) = J ∪ L.image D := by rw [allInds_eq, inds_conj, ← allInds_eq, hall]
  have hcountc : ∀ i, indCount (ts.map QTensor.conj) i = indCount ts i := by intro i; rw [indCount_eq, indCount_eq, inds_conj]
  have hcount : ∀ i ∈ J ∪ L.image D, indCount ((ts.map QTensor.conj).map fun t => t.reindex ρR) (ρR i) = indCount ts i := by
    intro i hi
    rw [indCount_reindex (fun j hj he => hinjR j (by rw [← hallc]; exact hj) i hi he), hcountc]
  have hRJ : ∀ i ∈ J, ρR i = i := fun i hi => by simp only [hρR, if_neg (hJT i hi)]
  have hLJ : ∀ i ∈ J, ρL i = i := fun i hi => by simp only [hρL, if_neg (hJT i hi)]
  have hinnerR : innerInds ((ts.map QTensor.conj).map fun t => t.reindex ρR) = J := by
    ext i
    unfold innerInds
    rw [Finset.mem_filter, allInds_reindex, hallc, Finset.mem_image]
    constructor
    · rintro ⟨⟨j, hj, rfl⟩, h2⟩
      rw [hcount j hj] at h2
      rcases Finset.mem_union.1 hj with hjJ | hjD
      · rw [hRJ j hjJ]; exact hjJ
      · obtain ⟨n, hn, rfl⟩ := Finset.mem_image.1 hjD
        rw [show indCount ts (D n) = 1 from h.occ1 n hn] at h2
        omega
    · intro hi
      refine ⟨⟨i, Finset.mem_union_left _ hi, hRJ i hi⟩, ?_⟩
      have := hcount i (Finset.mem_union_left _ hi)
      rw [hRJ i hi] at this
      rw [this]
      exact h.occ2 i hi
  have hinnerL : ∀ i ∈ J, i ∈ innerInds ((ts.map fun t => t.reindex ρL) ++ [T]) := by
    intro i hi
    have h1 : indCount (ts.map fun t => t.reindex ρL) (ρL i) = indCount ts i :=
      indCount_reindex fun j hj he => hinjL j (by rw [← hall]; exact hj) i (Finset.mem_union_left _ hi) he
    rw [hLJ i hi] at h1
    have h2 := h.occ2 i hi
    unfold innerInds
    rw [Finset.mem_filter, mem_allInds_iff_count, indCount_append, h1]
    have h3 : 2 ≤ indCount ts i := h2
    omega
  set F := f + 2 * k with hF
  set ρ' : ℕ → ℕ := fun i => if i ∈ J then i + F else i with hρ'
  have hcomb : combineNets F ((ts.map fun t => t.reindex ρL) ++ [T]) ((ts.map QTensor.conj).map fun t => t.reindex ρR) =
      ((ts.map fun t => t.reindex ρL) ++ [T]) ++ (ts.map QTensor.conj).map fun t => t.reindex (ρ' ∘ ρR) := by
    unfold combineNets
    congr 1
    rw [hinnerR, List.map_map]
    refine List.map_congr_left fun t _ => ?_
    rw [comp_apply, QTensor.reindex_comp]
    congr 1
    funext i
    simp only [comp_apply, hρ']
    by_cases hi : ρR i ∈ J
    · rw [if_pos ⟨hinnerL _ hi, hi⟩, if_pos hi]
    · rw [if_neg (fun hc => hi hc.2), if_neg hi]
  have hDT : ∀ n ∈ L, (D n ∈ targets.map D ↔ n ∈ targets) := fun n hn => h.mem_map_d hn ht
  have hρLD : ∀ n ∈ L, ρL (D n) = if n ∈ targets then f + targets.idxOf n else D n := by
    intro n hn
    simp only [hρL]
    by_cases hnt : n ∈ targets
    · rw [if_pos ((hDT n hn).2 hnt), if_pos hnt, h.idxOf_map_d hn ht]
    · rw [if_neg (fun hc => hnt ((hDT n hn).1 hc)), if_neg hnt]
  have hρRD : ∀ n ∈ L, ρR (D n) = if n ∈ targets then f + k + targets.idxOf n else D n := by
    intro n hn
    simp only [hρR]
    by_cases hnt : n ∈ targets
    · rw [if_pos ((hDT n hn).2 hnt), if_pos hnt, h.idxOf_map_d hn ht]
    · rw [if_neg (fun hc => hnt ((hDT n hn).1 hc)), if_neg hnt]
  have hfD : ∀ n ∈ L, D n < f := h.freshD
  have hfJ : ∀ i ∈ J, i < f := h.freshJ
  have hRnotJ : ∀ n ∈ L, ρR (D n) ∉ J := by
    intro n hn hc
    rw [hρRD n hn] at hc
    split at hc
    · have := hfJ _ hc; omega
    · exact h.notJ n hn hc
  have hρ'D : ∀ n ∈ L, (ρ' ∘ ρR) (D n) = ρR (D n) := by
    intro n hn
    simp only [comp_apply, hρ', if_neg (hRnotJ n hn)]
  have hρ'J : ∀ i ∈ J, (ρ' ∘ ρR) i = i + F := by
    intro i hi
    simp only [comp_apply, hRJ i hi, hρ', if_pos hi]
  have hinjR' : ∀ i ∈ J ∪ L.image D, ∀ j ∈ J ∪ L.image D, (ρ' ∘ ρR) i = (ρ' ∘ ρR) j → i = j := by
    have hRlt : ∀ i ∈ J ∪ L.image D, ρR i < F := by
      intro i hi
      have := hlt i hi
      simp only [hρR]
      split
      · rename_i hiT; have := hidx i hiT; omega
      · omega
    intro i hi j hj he
    apply hinjR i hi j hj
    simp only [comp_apply, hρ'] at he
    have h1 := hRlt i hi
    have h2 := hRlt j hj
    split at he <;> split at he <;> omega
  -- the sets of indices
  set Ls := List.range' f k with hLs
  set Rs := List.range' (f + k) k with hRs
  set K := L \ targets.toFinset with hK
  set J' := J.image (ρ' ∘ ρR) with hJ'
  have hLsm : ∀ i, i ∈ Ls ↔ f ≤ i ∧ i < f + k := by intro i; rw [hLs, List.mem_range'_1]
  have hRsm : ∀ i, i ∈ Rs ↔ f + k ≤ i ∧ i < f + k + k := by intro i; rw [hRs, List.mem_range'_1]
  have hJ'm : ∀ i ∈ J', F ≤ i := by
    intro i hi
    obtain ⟨j, hj, rfl⟩ := Finset.mem_image.1 hi
    rw [hρ'J j hj]; omega
  have hKm : ∀ i ∈ K.image D, i < f ∧ i ∉ J := by
    intro i hi
    obtain ⟨n, hn, rfl⟩ := Finset.mem_image.1 hi
    have hn' : n ∈ L := (Finset.mem_sdiff.1 hn).1
    exact ⟨hfD n hn', h.notJ n hn'⟩
  have hset : allInds (((ts.map fun t => t.reindex ρL) ++ [T]) ++ (ts.map QTensor.conj).map fun t => t.reindex (ρ' ∘ ρR)) =
      J ∪ (J' ∪ (Ls.toFinset ∪ (Rs.toFinset ∪ K.image D))) := by
    rw [allInds_append, allInds_append, allInds_reindex, allInds_reindex, hall, hallc]
    have hTi : allInds [T] = Rs.toFinset ∪ Ls.toFinset := by
      simp [allInds, hT, List.toFinset_append]
    rw [hTi, Finset.image_union, Finset.image_union]
    have e1 : J.image ρL = J := (Finset.image_congr fun i hi => hLJ i hi).trans Finset.image_id
    have e2 : (L.image D).image ρL ⊆ Ls.toFinset ∪ K.image D := by
      intro i hi
      obtain ⟨j, hj, rfl⟩ := Finset.mem_image.1 hi
      obtain ⟨n, hn, rfl⟩ := Finset.mem_image.1 hj
      rw [hρLD n hn, Finset.mem_union]
      split
      · rename_i hnt
        have := List.idxOf_lt_length_iff.2 hnt
        exact Or.inl (List.mem_toFinset.2 ((hLsm _).2 ⟨by omega, by omega⟩))
      · rename_i hnt
        exact Or.inr (Finset.mem_image_of_mem D (Finset.mem_sdiff.2 ⟨hn, by simpa using hnt⟩))
    have e3 : (L.image D).image (ρ' ∘ ρR) ⊆ Rs.toFinset ∪ K.image D := by
      intro i hi
      obtain ⟨j, hj, rfl⟩ := Finset.mem_image.1 hi
      obtain ⟨n, hn, rfl⟩ := Finset.mem_image.1 hj
      rw [hρ'D n hn, hρRD n hn, Finset.mem_union]
      split
      · rename_i hnt
        have := List.idxOf_lt_length_iff.2 hnt
        exact Or.inl (List.mem_toFinset.2 ((hRsm _).2 ⟨by omega, by omega⟩))
      · rename_i hnt
        exact Or.inr (Finset.mem_image_of_mem D (Finset.mem_sdiff.2 ⟨hn, by simpa using hnt⟩))
    have e4 : K.image D ⊆ (L.image D).image ρL := by
      intro i hi
      obtain ⟨n, hn, rfl⟩ := Finset.mem_image.1 hi
      obtain ⟨hn1, hn2⟩ := Finset.mem_sdiff.1 hn
      refine Finset.mem_image.2 ⟨D n, Finset.mem_image_of_mem D hn1, ?_⟩
      rw [hρLD n hn1, if_neg (by simpa using hn2)]
    rw [e1]
    ext i
    have m2 := @e2 i
    have m3 := @e3 i
    have m4 := @e4 i
    simp only [Finset.mem_union] at m2 m3 m4 ⊢
    tauto
  have hd1 : Disjoint J (J' ∪ (Ls.toFinset ∪ (Rs.toFinset ∪ K.image D))) := by
    rw [Finset.disjoint_left]
    intro i hi hc
    have := hfJ i hi
    simp only [Finset.mem_union, List.mem_toFinset] at hc
    rcases hc with hc | hc | hc | hc
    · have := hJ'm i hc; omega
    · have := (hLsm i).1 hc; omega
    · have := (hRsm i).1 hc; omega
    · exact (hKm i hc).2 hi
  have hd2 : Disjoint J' (Ls.toFinset ∪ (Rs.toFinset ∪ K.image D)) := by
    rw [Finset.disjoint_left]
    intro i hi hc
    have := hJ'm i hi
    simp only [Finset.mem_union, List.mem_toFinset] at hc
    rcases hc with hc | hc | hc
    · have := (hLsm i).1 hc; omega
    · have := (hRsm i).1 hc; omega
    · have := (hKm i hc).1; omega
  have hd3 : Disjoint Ls.toFinset (Rs.toFinset ∪ K.image D) := by
    rw [Finset.disjoint_left]
    intro i hi hc
    have := (hLsm i).1 (List.mem_toFinset.1 hi)
    simp only [Finset.mem_union, List.mem_toFinset] at hc
    rcases hc with hc | hc
    · have := (hRsm i).1 hc; omega
    · have := (hKm i hc).1; omega
  have hd4 : Disjoint Rs.toFinset (K.image D) := by
    rw [Finset.disjoint_left]
    intro i hi hc
    have := (hRsm i).1 (List.mem_toFinset.1 hi)
    have := (hKm i hc).1
    omega
  have e : ∀ a, netVal (((ts.map fun t => t.reindex ρL) ++ [T]) ++ (ts.map QTensor.conj).map fun t => t.reindex (ρ' ∘ ρR)) a =
      netVal ts (a ∘ ρL) * (A ((Rs ++ Ls).map a) * star (netVal ts (a ∘ (ρ' ∘ ρR)))) := by
    intro a
    rw [netVal_append, netVal_append, netVal_reindex, netVal_reindex, netVal_conj]
    simp only [netVal_cons, netVal_nil, QTensor.val, hT]
    ring
  -- the sum over the inner indices
  have hin : ∀ a, sumOver J' (sumOver J (netVal (((ts.map fun t => t.reindex ρL) ++ [T]) ++ (ts.map QTensor.conj).map fun t => t.reindex (ρ' ∘ ρR)))) a =
      ψ (fun n => a (ρL (D n))) * (A ((Rs ++ Ls).map a) * star (ψ fun n => a (ρR (D n)))) := by
    intro a
    have h1 : ∀ a, sumOver J (netVal (((ts.map fun t => t.reindex ρL) ++ [T]) ++ (ts.map QTensor.conj).map fun t => t.reindex (ρ' ∘ ρR))) a =
        star (netVal ts (a ∘ (ρ' ∘ ρR))) * (ψ (fun n => a (ρL (D n))) * A ((Rs ++ Ls).map a)) := by
      intro a
      have hJL : J.image ρL = J := (Finset.image_congr fun i hi => hLJ i hi).trans Finset.image_id
      have h2 : sumOver J (fun a => netVal ts (a ∘ ρL)) a = ψ (fun n => a (ρL (D n))) := by
        have := h.renamed hinjL a (fun n => a (ρL (D n))) fun n _ => rfl
        rwa [hJL] at this
      rw [sumOver_congr e, sumOver_mul, h2]
      · ring
      · intro a a' haa
        congr 1
        · congr 1
          refine List.map_congr_left fun i hi => haa i fun hc => ?_
          have := hfJ i hc
          rcases List.mem_append.1 hi with hi | hi
          · have := (hRsm i).1 hi; omega
          · have := (hLsm i).1 hi; omega
        · congr 1
          refine netVal_congr fun i hi => haa _ fun hc => ?_
          rw [hall] at hi
          rcases Finset.mem_union.1 hi with hi | hi
          · rw [hρ'J i hi] at hc
            have := hfJ _ hc
            omega
          · obtain ⟨n, hn, rfl⟩ := Finset.mem_image.1 hi
            rw [hρ'D n hn] at hc
            exact hRnotJ n hn hc
    rw [sumOver_congr h1, sumOver_mul, sumOver_star]
    · have h3 : sumOver J' (fun a => netVal ts (a ∘ (ρ' ∘ ρR))) a = ψ (fun n => a (ρR (D n))) :=
        h.renamed hinjR' a (fun n => a (ρR (D n))) fun n hn => by rw [hρ'D n hn]
      rw [h3]
      ring
    · intro a a' haa
      congr 1
      · refine h.state_congr fun n hn => haa _ fun hc => ?_
        have h4 := hJ'm _ hc
        rw [hρLD n hn] at h4
        split at h4
        · rename_i hnt
          have := List.idxOf_lt_length_iff.2 hnt
          omega
        · have := hfD n hn; omega
      · congr 1
        refine List.map_congr_left fun i hi => haa i fun hc => ?_
        have := hJ'm i hc
        rcases List.mem_append.1 hi with hi | hi
        · have := (hRsm i).1 hi; omega
        · have := (hLsm i).1 hi; omega
  have hLsn : Ls.Nodup := List.nodup_range'
  have hRsn : Rs.Nodup := List.nodup_range'
  have hLsl : Ls.length = k := List.length_range'
  have hRsl : Rs.length = k := List.length_range'
  rw [contractAll_eq _ (fun _ => false), hcomb, hset, sumOver_union hd1, sumOver_union hd2, sumOver_union hd3, sumOver_union hd4, funext hin]
  have hKinj : Set.InjOn D K := fun x hx y hy he =>
    h.inj x (Finset.mem_sdiff.1 (Finset.mem_coe.1 hx)).1 y (Finset.mem_sdiff.1 (Finset.mem_coe.1 hy)).1 he
  rw [sumOver_nodes hKinj _ (fun S => ∑ x ∈ allBits k, ∑ y ∈ allBits k,
    ψ (setBits (indB S) targets y) * (A (x ++ y) * star (ψ (setBits (indB S) targets x))))]
  · unfold stateInner
    rw [hL', sum_powerset_setBits targets L htn ht (fun b => star (ψ b) * opN (fun x y => A (x ++ y)) targets ψ b)]
    refine Finset.sum_congr rfl fun S _ => Finset.sum_congr rfl fun x hx => ?_
    unfold opN
    rw [map_setBits htn _ (mem_allBits.1 hx), Finset.mul_sum]
    refine Finset.sum_congr rfl fun y _ => ?_
    rw [setBits_setBits]
    ring
  · intro S _ a' ha'
    rw [sumOver_list hRsn, hRsl]
    refine Finset.sum_congr rfl fun x hx => ?_
    rw [sumOver_list hLsn, hLsl]
    refine Finset.sum_congr rfl fun y hy => ?_
    have hxl := mem_allBits.1 hx
    have hyl := mem_allBits.1 hy
    have hR : ∀ i, i ∉ Ls → setBits (setBits a' Rs x) Ls y i = setBits a' Rs x i := by
      intro i hi
      conv_lhs => unfold setBits
      rw [if_neg hi]
      rfl
    have hRnL : ∀ i ∈ Rs, i ∉ Ls := by
      intro i hi hc
      have := (hRsm i).1 hi
      have := (hLsm i).1 hc
      omega
    have m1 : (Rs ++ Ls).map (setBits (setBits a' Rs x) Ls y) = x ++ y := by
      rw [List.map_append, map_setBits hLsn _ (by rw [hyl, hLsl]), List.map_congr_left fun i hi => hR i (hRnL i hi),
        map_setBits hRsn _ (by rw [hxl, hRsl])]
    have hidxr : ∀ s j : ℕ, j < k → (List.range' s k).idxOf (s + j) = j := by
      intro s j hj
      have hj' : j < (List.range' s k).length := by rw [List.length_range']; exact hj
      have := (List.nodup_range' (s := s) (n := k) (step := 1)).idxOf_getElem j hj'
      rw [List.getElem_range'] at this
      simpa using this
    have m2 : ∀ n ∈ L, setBits (setBits a' Rs x) Ls y (ρL (D n)) = setBits (indB S) targets y n := by
      intro n hn
      rw [hρLD n hn]
      by_cases hnt : n ∈ targets
      · have hj := List.idxOf_lt_length_iff.2 hnt
        rw [if_pos hnt]
        unfold setBits
        rw [if_pos ((hLsm _).2 ⟨by omega, by omega⟩), if_pos hnt, hLs, hidxr f _ hj]
      · have hlt' := hfD n hn
        rw [if_neg hnt, hR _ (fun hc => by have := (hLsm _).1 hc; omega)]
        unfold setBits
        rw [if_neg (fun hc => by have := (hRsm _).1 hc; omega), if_neg hnt, ha' n (Finset.mem_sdiff.2 ⟨hn, by simpa using hnt⟩)]
    have m3 : ∀ n ∈ L, setBits (setBits a' Rs x) Ls y (ρR (D n)) = setBits (indB S) targets x n := by
      intro n hn
      rw [hρRD n hn]
      by_cases hnt : n ∈ targets
      · have hj := List.idxOf_lt_length_iff.2 hnt
        have hmem : f + k + targets.idxOf n ∈ Rs := (hRsm _).2 ⟨by omega, by omega⟩
        rw [if_pos hnt, hR _ (hRnL _ hmem)]
        unfold setBits
        rw [if_pos hmem, if_pos hnt, hRs, hidxr (f + k) _ hj]
      · have hlt' := hfD n hn
        rw [if_neg hnt, hR _ (fun hc => by have := (hLsm _).1 hc; omega)]
        unfold setBits
        rw [if_neg (fun hc => by have := (hRsm _).1 hc; omega), if_neg hnt, ha' n (Finset.mem_sdiff.2 ⟨hn, by simpa using hnt⟩)]
    rw [m1, h.state_congr m2, h.state_congr m3]

end Represents

end Graphix
