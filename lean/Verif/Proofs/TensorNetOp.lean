import Verif.Proofs.TensorNetRead

/-!
# Operators on several nodes of a tensor network
-/

namespace Graphix

open Function

/-- A sum over the values of the indices of a list. -/
theorem sumOver_list : ∀ {l : List ℕ}, l.Nodup → ∀ (f : (ℕ → Bool) → ℂ) (a : ℕ → Bool),
    sumOver l.toFinset f a = ∑ s ∈ allBits l.length, f (setBits a l s)
  | [], _, f, a => by
    simp only [List.toFinset_nil, sumOver_empty, List.length_nil, allBits, Finset.sum_singleton]
    congr 1
  | i :: l, h, f, a => by
    rw [List.nodup_cons] at h
    have e : ∀ x s, setBits (update a i x) l s = setBits a (i :: l) (x :: s) := by
      intro x s
      rw [setBits_cons h.1]
      funext j
      by_cases hj : j = i
      · subst hj; simp [setBits, h.1]
      · simp [setBits, hj]
    rw [List.toFinset_cons, sumOver_insert (by simpa using h.1), sumOver_list h.2, sumOver_list h.2, List.length_cons,
      sum_allBits_succ l.length fun s => f (setBits a (i :: l) s), Finset.sum_add_distrib]
    simp only [e]

theorem setDangs_get? : ∀ (nodes : List ℕ) (d : PyDict ℕ ℕ) (new m : ℕ), nodes.Nodup →
    (TensorNet.setDangs d new nodes).get? m = if m ∈ nodes then some (new + nodes.idxOf m) else d.get? m
  | [], d, new, m, _ => by simp [TensorNet.setDangs]
  | n :: l, d, new, m, h => by
    rw [List.nodup_cons] at h
    rw [TensorNet.setDangs, setDangs_get? l _ _ m h.2]
    by_cases hm : m = n
    · subst hm
      rw [if_neg h.1, PyDict.get?_set_self]; simp
    · by_cases hl : m ∈ l
      · rw [if_pos hl, if_pos (by simp [hl]), List.idxOf_cons_ne _ (Ne.symm hm)]
        congr 1
        omega
      · rw [if_neg hl, if_neg (by simp [hm, hl]), PyDict.get?_set_ne _ _ (Ne.symm hm)]

namespace Represents

variable {tn : TensorNet} {L J : Finset ℕ} {ψ : QState}

theorem dangs_ok (h : Represents tn L J ψ) : ∀ {nodes : List ℕ}, (∀ n ∈ nodes, n ∈ L) → tn.dangs nodes = .ok (nodes.map tn.d)
  | [], _ => rfl
  | n :: l, hn => by
    simp only [TensorNet.dangs, h.dang_ok (hn n (by simp)), h.dangs_ok (nodes := l) fun m hm => hn m (by simp [hm]), bind, Except.bind, pure,
      Except.pure, List.map_cons]

theorem idxOf_map_d (h : Represents tn L J ψ) {n : ℕ} (hn : n ∈ L) : ∀ {nodes : List ℕ}, (∀ m ∈ nodes, m ∈ L) →
    (nodes.map tn.d).idxOf (tn.d n) = nodes.idxOf n
  | [], _ => rfl
  | m :: l, hl => by
    by_cases hm : m = n
    · subst hm; simp
    · rw [List.map_cons, List.idxOf_cons_ne _ fun hc => hm (h.inj m (hl m (by simp)) n hn hc), List.idxOf_cons_ne _ hm,
        h.idxOf_map_d hn fun k hk => hl k (by simp [hk])]

theorem mem_map_d (h : Represents tn L J ψ) {n : ℕ} (hn : n ∈ L) {nodes : List ℕ} (hl : ∀ m ∈ nodes, m ∈ L) : tn.d n ∈ nodes.map tn.d ↔ n ∈ nodes := by
  rw [List.mem_map]
  constructor
  · rintro ⟨m, hm, he⟩; exact h.inj m (hl m hm) n hn he ▸ hm
  · exact fun hm => ⟨n, hm, rfl⟩

theorem nodup_map_d (h : Represents tn L J ψ) {nodes : List ℕ} (hnd : nodes.Nodup) (hl : ∀ m ∈ nodes, m ∈ L) : (nodes.map tn.d).Nodup :=
  List.Nodup.map_on (fun x hx y hy hxy => h.inj x (hl x hx) y (hl y hy) hxy) hnd

/-- An operator on several nodes. -/
theorem evolveN (h : Represents tn L J ψ) {nodes : List ℕ} (hnd : nodes.Nodup) (hl : ∀ n ∈ nodes, n ∈ L) (A : List Bool → ℂ) (tag : ℕ) (o : Bool) :
    Represents { tn with
      tensors := tn.tensors ++ [⟨List.range' tn.fresh nodes.length ++ nodes.map tn.d, A, tag, o⟩]
      fresh := tn.fresh + nodes.length
      dangling := TensorNet.setDangs tn.dangling tn.fresh nodes }
      L (J ∪ (nodes.map tn.d).toFinset) (opN (fun x y => A (x ++ y)) nodes ψ) := by
  obtain ⟨ts, f, dn, out⟩ := tn
  set D := TensorNet.d ⟨ts, f, dn, out⟩ with hD
  set T : QTensor := ⟨List.range' f nodes.length ++ nodes.map D, A, tag, o⟩ with hT
  set tn' : TensorNet := ⟨ts ++ [T], f + nodes.length, TensorNet.setDangs dn f nodes, out⟩ with htn'
  have hget : ∀ m, tn'.dangling.get? m = if m ∈ nodes then some (f + nodes.idxOf m) else dn.get? m := fun m => setDangs_get? nodes dn f m hnd
  have hd : ∀ m, tn'.d m = if m ∈ nodes then f + nodes.idxOf m else D m := by
    intro m
    unfold TensorNet.d
    rw [hget]
    split <;> rfl
  have hfd : ∀ m ∈ L, D m < f := h.freshD
  have hfJ : ∀ i ∈ J, i < f := h.freshJ
  have hidx : ∀ m ∈ nodes, nodes.idxOf m < nodes.length := fun m hm => List.idxOf_lt_length_iff.2 hm
  have hrange : ∀ i, i ∈ List.range' f nodes.length ↔ f ≤ i ∧ i < f + nodes.length := by intro i; rw [List.mem_range'_1]
  constructor
  · intro m hm
    rw [hget, hd]
    split
    · rfl
    · exact h.dang m hm
  · intro m hm k hk
    rw [hd, hd]
    by_cases hmn : m ∈ nodes <;> by_cases hkn : k ∈ nodes
    · rw [if_pos hmn, if_pos hkn]
      intro hc
      exact (List.idxOf_inj hmn).1 (by omega)
    · rw [if_pos hmn, if_neg hkn]; intro hc; have := hfd k hk; omega
    · rw [if_neg hmn, if_pos hkn]; intro hc; have := hfd m hm; omega
    · rw [if_neg hmn, if_neg hkn]; exact h.inj m hm k hk
  · intro m hm
    rw [Finset.mem_union, not_or, hd]
    split
    · refine ⟨fun hc => absurd (hfJ _ hc) (by omega), fun hc => ?_⟩
      obtain ⟨k, hk, he⟩ := List.mem_map.1 (List.mem_toFinset.1 hc)
      have := hfd k (hl k hk)
      omega
    · rename_i hmn
      exact ⟨h.notJ m hm, fun hc => hmn ((h.mem_map_d hm hl).1 (List.mem_toFinset.1 hc))⟩
  · intro i hi
    dsimp only [tn']
    rcases Finset.mem_union.1 hi with hi | hi
    · have := hfJ i hi; omega
    · obtain ⟨k, hk, rfl⟩ := List.mem_map.1 (List.mem_toFinset.1 hi)
      have := hfd k (hl k hk)
      omega
  · intro m hm
    rw [hd]
    dsimp only [tn']
    split
    · rename_i hmn
      have := hidx m hmn
      omega
    · have := hfd m hm; omega
  · intro i hi
    dsimp only [tn'] at hi
    rw [allInds_append, Finset.mem_union] at hi
    rcases hi with hi | hi
    · rcases h.inds i hi with hj | ⟨m, hm, hdm⟩
      · exact Or.inl (Finset.mem_union_left _ hj)
      · by_cases hmn : m ∈ nodes
        · exact Or.inl (Finset.mem_union_right _ (List.mem_toFinset.2 (List.mem_map.2 ⟨m, hmn, hdm⟩)))
        · exact Or.inr ⟨m, hm, by rw [hd, if_neg hmn, ← hdm]⟩
    · obtain ⟨t, ht, hi⟩ := mem_allInds.1 hi
      obtain rfl := List.mem_singleton.1 ht
      rcases List.mem_append.1 hi with hi | hi
      · obtain ⟨h1, h2⟩ := (hrange i).1 hi
        have hlt : i - f < nodes.length := by omega
        refine Or.inr ⟨nodes[i - f], hl _ (List.getElem_mem hlt), ?_⟩
        rw [hd, if_pos (List.getElem_mem hlt), hnd.idxOf_getElem]
        omega
      · exact Or.inl (Finset.mem_union_right _ (List.mem_toFinset.2 hi))
  · intro m hm
    dsimp only [tn']
    rw [indCount_append, indCount_one]
    change indCount ts (tn'.d m) + (if tn'.d m ∈ List.range' f nodes.length ++ nodes.map D then 1 else 0) = 1
    rw [hd]
    by_cases hmn : m ∈ nodes
    · rw [if_pos hmn, show indCount ts (f + nodes.idxOf m) = 0 from h.count_ge (Nat.le_add_right _ _), if_pos]
      exact List.mem_append_left _ ((hrange _).2 ⟨by omega, by have := hidx m hmn; omega⟩)
    · rw [if_neg hmn, show indCount ts (D m) = 1 from h.occ1 m hm, if_neg]
      intro hc
      rcases List.mem_append.1 hc with hc | hc
      · have := ((hrange _).1 hc).1; have := hfd m hm; omega
      · exact hmn ((h.mem_map_d hm hl).1 hc)
  · intro i hi
    dsimp only [tn']
    rw [indCount_append, indCount_one]
    change 2 ≤ indCount ts i + (if i ∈ List.range' f nodes.length ++ nodes.map D then 1 else 0)
    rcases Finset.mem_union.1 hi with hi | hi
    · exact le_trans (h.occ2 i hi) (Nat.le_add_right _ _)
    · rw [List.mem_toFinset] at hi
      rw [if_pos (List.mem_append_right _ hi)]
      obtain ⟨k, hk, rfl⟩ := List.mem_map.1 hi
      rw [show indCount ts (D k) = 1 from h.occ1 k (hl k hk)]
  · intro a b hab
    have e : ∀ a, netVal tn'.tensors a = netVal ts a * A ((List.range' f nodes.length ++ nodes.map D).map a) := by
      intro a
      change netVal (ts ++ [T]) a = _
      rw [netVal_append]; simp [QTensor.val, hT]
    have hdis : Disjoint J (nodes.map D).toFinset := by
      rw [Finset.disjoint_right]
      intro i hi
      obtain ⟨k, hk, rfl⟩ := List.mem_map.1 (List.mem_toFinset.1 hi)
      exact h.notJ k (hl k hk)
    rw [sumOver_congr e, sumOver_union hdis, sumOver_list (h.nodup_map_d hnd hl), List.length_map]
    unfold opN
    refine Finset.sum_congr rfl fun s hs => ?_
    have hslen : s.length = nodes.length := mem_allBits.1 hs
    rw [sumOver_mul]
    · have hbits : ∀ n ∈ L, setBits a (nodes.map D) s (D n) = setBits b nodes s n := by
        intro n hn
        unfold setBits
        by_cases hnn : n ∈ nodes
        · rw [if_pos ((h.mem_map_d hn hl).2 hnn), if_pos hnn, h.idxOf_map_d hn hl]
        · rw [if_neg (fun hc => hnn ((h.mem_map_d hn hl).1 hc)), if_neg hnn, ← hab n hn, hd, if_neg hnn]
      rw [show sumOver J (netVal ts) (setBits a (nodes.map D) s) = ψ (setBits b nodes s) from h.val _ _ hbits, mul_comm]
      congr 2
      rw [List.map_append, map_setBits (h.nodup_map_d hnd hl) a (by rw [hslen, List.length_map])]
      congr 1
      refine List.ext_getElem (by simp) fun i h1 h2 => ?_
      rw [List.length_map, List.length_range'] at h1
      rw [List.getElem_map, List.getElem_map, List.getElem_range', ← hab _ (hl _ (List.getElem_mem h1)), hd, if_pos (List.getElem_mem h1),
        hnd.idxOf_getElem]
      unfold setBits
      rw [if_neg]
      · simp
      · intro hc
        obtain ⟨k, hk, he⟩ := List.mem_map.1 hc
        have := hfd k (hl k hk)
        rw [hD] at this
        omega
    · intro a a' haa
      congr 1
      refine List.map_congr_left fun i hi => haa i ?_
      rcases List.mem_append.1 hi with hi | hi
      · intro hc
        have := ((hrange _).1 hi).1
        have := hfJ i hc
        omega
      · exact fun hc => (Finset.disjoint_left.1 hdis) hc (List.mem_toFinset.2 hi)

end Represents

end Graphix
