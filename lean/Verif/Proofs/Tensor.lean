import Verif.Model.Tensor
import Mathlib.Data.List.Sort

/-! # Index calculus of the tensor operations -/

namespace Graphix

theorem mem_bitSet {n : ℕ} {l : List Bool} : l ∈ bitSet n ↔ l.length = n := by
  induction n generalizing l with
  | zero => simp [bitSet]
  | succ n ih =>
    cases l with
    | nil => simp [bitSet]
    | cons x l => cases x <;> simp [bitSet, ih]

theorem ofBits_lt (l : List Bool) : ofBits l < 2 ^ l.length := by
  induction l with
  | nil => simp [ofBits]
  | cons x l ih =>
    simp only [ofBits, List.length_cons, pow_succ]
    have : x.toNat ≤ 1 := Bool.toNat_le _
    nlinarith

theorem ofBits_map (l : List ℕ) (b : Basis) : ofBits (l.map b) = enc l b := by
  induction l with
  | nil => rfl
  | cons n l ih => simp [ofBits, enc, ih]

@[simp] theorem toBits_length (n i : ℕ) : (toBits n i).length = n := by
  induction n with
  | zero => rfl
  | succ n ih => simp [toBits, ih]

theorem toBits_congr {n i j : ℕ} (h : ∀ k < n, i.testBit k = j.testBit k) : toBits n i = toBits n j := by
  induction n with
  | zero => rfl
  | succ n ih => simp only [toBits]; rw [h n (by omega), ih (fun k hk => h k (by omega))]

theorem toBits_ofBits (l : List Bool) : toBits l.length (ofBits l) = l := by
  induction l with
  | nil => rfl
  | cons x l ih =>
    have hlt := ofBits_lt l
    simp only [List.length_cons, toBits, ofBits]
    congr 1
    · rw [mul_comm, Nat.testBit_two_pow_mul_add _ hlt]
      simp; cases x <;> simp
    · have : toBits l.length (x.toNat * 2 ^ l.length + ofBits l) = toBits l.length (ofBits l) := by
        apply toBits_congr
        intro k hk
        rw [mul_comm, Nat.testBit_two_pow_mul_add _ hlt, if_pos hk]
      rw [this, ih]

theorem ofBits_toBits {n i : ℕ} (h : i < 2 ^ n) : ofBits (toBits n i) = i := by
  induction n generalizing i with
  | zero => simp at h; simp [toBits, ofBits, h]
  | succ n ih =>
    have e : toBits n i = toBits n (i % 2 ^ n) := by
      apply toBits_congr; intro k hk; rw [Nat.testBit_mod_two_pow]; simp [hk]
    simp only [toBits, ofBits, toBits_length]
    rw [e, ih (Nat.mod_lt _ (by positivity))]
    have hq : i / 2 ^ n < 2 := by rw [Nat.div_lt_iff_lt_mul (by positivity)]; rw [pow_succ] at h; linarith
    have := Nat.div_add_mod' i (2 ^ n)
    rw [Nat.testBit_eq_decide_div_mod_eq]
    rcases (show i / 2 ^ n = 0 ∨ i / 2 ^ n = 1 by generalize i / 2 ^ n = k at hq; omega) with h | h
    · rw [h] at this ⊢; simpa using this
    · rw [h] at this ⊢; simpa using this

theorem sum_bitSet {M : Type} [AddCommMonoid M] (n : ℕ) (f : ℕ → M) :
    ∑ x ∈ bitSet n, f (ofBits x) = ∑ i ∈ Finset.range (2 ^ n), f i := by
  refine Finset.sum_bij' (fun x _ => ofBits x) (fun i _ => toBits n i) ?_ ?_ ?_ ?_ ?_
  · intro x hx; rw [mem_bitSet] at hx; subst hx; simpa using ofBits_lt x
  · intro i _; rw [mem_bitSet]; simp
  · intro x hx; rw [mem_bitSet] at hx; subst hx; exact toBits_ofBits x
  · intro i hi; exact ofBits_toBits (by simpa using hi)
  · intro x _; rfl

theorem sum_bitSet' {M : Type} [AddCommMonoid M] (n : ℕ) (f : List Bool → M) :
    ∑ i ∈ Finset.range (2 ^ n), f (toBits n i) = ∑ x ∈ bitSet n, f x := by
  rw [← sum_bitSet n (fun i => f (toBits n i))]
  refine Finset.sum_congr rfl (fun x hx => ?_)
  rw [mem_bitSet] at hx; subst hx; rw [toBits_ofBits]

namespace NdArray

theorem mem_free {nd : ℕ} {axes : List ℕ} {a : ℕ} : a ∈ free nd axes ↔ a < nd ∧ a ∉ axes := by
  simp [free]

theorem free_nodup (nd : ℕ) (axes : List ℕ) : (free nd axes).Nodup := List.Nodup.filter _ List.nodup_range

@[simp] theorem gather_length (idx : List Bool) (axes : List ℕ) : (gather idx axes).length = axes.length := by
  simp [gather]

@[simp] theorem merge_length (nd : ℕ) (axes : List ℕ) (s vals : List Bool) : (merge nd axes s vals).length = nd := by
  simp [merge]

theorem getD_map_range (nd : ℕ) (f : ℕ → Bool) {a : ℕ} (h : a < nd) : ((List.range nd).map f).getD a false = f a := by
  simp [List.getD, h]

theorem gather_idxOf {idx : List Bool} {axes : List ℕ} {a : ℕ} (h : a ∈ axes) :
    (gather idx axes).getD (axes.idxOf a) false = idx.getD a false := by
  have := List.getElem?_idxOf h
  simp [gather, List.getD, List.getElem?_map, this]

/-- An index list is determined by its parts. -/
theorem merge_gather {nd : ℕ} {axes : List ℕ} {T : List Bool} (h : T.length = nd) :
    merge nd axes (gather T axes) (gather T (free nd axes)) = T := by
  subst h
  apply List.ext_getElem (by simp)
  intro a h1 h2
  simp only [merge, List.getElem_map, List.getElem_range]
  by_cases ha : a ∈ axes
  · rw [if_pos ha, gather_idxOf ha]; simp [List.getD, h2]
  · rw [if_neg ha, gather_idxOf (mem_free.2 ⟨h2, ha⟩)]; simp [List.getD, h2]

theorem merge_eq {nd : ℕ} {axes : List ℕ} {T s vals : List Bool} (h : T.length = nd) (h1 : gather T axes = s)
    (h2 : gather T (free nd axes) = vals) : merge nd axes s vals = T := by
  subst h1 h2; exact merge_gather h

theorem gather_merge {nd : ℕ} {axes : List ℕ} {s : List Bool} (vals : List Bool) (hn : axes.Nodup) (hr : ∀ a ∈ axes, a < nd)
    (hs : s.length = axes.length) : gather (merge nd axes s vals) axes = s := by
  apply List.ext_getElem (by simp [hs])
  intro i h1 h2
  simp only [gather, List.getElem_map]
  have hi : i < axes.length := by simpa using h1
  have hm : axes[i] ∈ axes := List.getElem_mem _
  unfold merge
  rw [getD_map_range _ _ (hr _ hm), if_pos hm, hn.idxOf_getElem]
  simp [List.getD, h2]

theorem gather_merge_free {nd : ℕ} {axes : List ℕ} {vals : List Bool} (s : List Bool)
    (hs : vals.length = (free nd axes).length) : gather (merge nd axes s vals) (free nd axes) = vals := by
  apply List.ext_getElem (by simp [hs])
  intro i h1 h2
  simp only [gather, List.getElem_map]
  have hi : i < (free nd axes).length := by simpa using h1
  have hm : (free nd axes)[i] ∈ free nd axes := List.getElem_mem _
  have hm' := mem_free.1 hm
  unfold merge
  rw [getD_map_range _ _ hm'.1, if_neg hm'.2, (free_nodup nd axes).idxOf_getElem]
  simp [List.getD, h2]

theorem gather_append (T : List Bool) (a b : List ℕ) : gather T (a ++ b) = gather T a ++ gather T b := by simp [gather]

theorem gather_left {x y : List Bool} {axes : List ℕ} (h : ∀ a ∈ axes, a < x.length) : gather (x ++ y) axes = gather x axes := by
  apply List.map_congr_left
  intro a ha
  simp [List.getD, List.getElem?_append_left (h a ha)]

theorem gather_right {x y : List Bool} {n : ℕ} (axes : List ℕ) (h : x.length = n) :
    gather (x ++ y) (axes.map (· + n)) = gather y axes := by
  subst h
  simp only [gather, List.map_map]
  apply List.map_congr_left
  intro a _
  simp [List.getD, List.getElem?_append_right]

theorem gather_range (x : List Bool) : gather x (List.range x.length) = x := by
  apply List.ext_getElem (by simp)
  intro i h1 h2
  simp [gather, List.getD, h2]

theorem gather_range' {x : List Bool} {n : ℕ} (h : x.length = n) : gather x (List.range n) = x := by
  subst h; exact gather_range x

theorem range_add_eq (m n : ℕ) : List.range (m + n) = List.range m ++ (List.range n).map (· + m) := by
  rw [List.range_add]; congr 1; apply List.map_congr_left; intro a _; omega

theorem free_length {nd : ℕ} {axes : List ℕ} (hn : axes.Nodup) (hr : ∀ a ∈ axes, a < nd) :
    (free nd axes).length = nd - axes.length := by
  have h1 : ((List.range nd).filter (· ∈ axes)).length + (free nd axes).length = nd := by
    have := List.length_eq_length_filter_add (l := List.range nd) (fun a => decide (a ∈ axes))
    simp only [List.length_range] at this
    rw [free]
    simpa using this.symm
  have h2 : ((List.range nd).filter (· ∈ axes)).Perm axes := by
    rw [List.perm_ext_iff_of_nodup (List.nodup_range.filter _) hn]
    intro a; simp; exact fun h => hr a h
  rw [h2.length_eq] at h1
  omega

theorem free_left {m n : ℕ} {axes : List ℕ} (h : ∀ a ∈ axes, a < m) :
    free (m + n) axes = free m axes ++ (List.range n).map (· + m) := by
  rw [free, range_add_eq, List.filter_append]
  congr 1
  rw [List.filter_eq_self]
  intro a ha
  simp only [List.mem_map, List.mem_range] at ha
  obtain ⟨k, -, rfl⟩ := ha
  simp only [decide_not, Bool.not_eq_true', decide_eq_false_iff_not]
  intro hc; have := h _ hc; omega

theorem free_right {m n : ℕ} (axes : List ℕ) :
    free (m + n) (axes.map (· + m)) = List.range m ++ (free n axes).map (· + m) := by
  rw [free, range_add_eq, List.filter_append]
  congr 1
  · rw [List.filter_eq_self]
    intro a ha
    simp only [List.mem_range] at ha
    rw [decide_eq_true_eq]
    simp only [List.mem_map, not_exists, not_and]
    intro x _ hx; omega
  · rw [List.filter_map, free]
    congr 1
    apply List.filter_congr
    intro a _
    simp only [Function.comp, List.mem_map, Nat.add_right_cancel_iff, exists_eq_right]

theorem free_range (k n : ℕ) : free (k + n) (List.range k) = (List.range n).map (· + k) := by
  rw [free_left (by simp)]
  have : free k (List.range k) = [] := by simp [free]
  rw [this]; rfl

/-- What `transpose` reads. -/
theorem transpose_at {a : NdArray} {order : List ℕ} {idx T : List Bool} (hT : T.length = a.ndim)
    (hn : ∀ ax < a.ndim, ax ∈ order) (h : gather T order = idx) : (a.transpose order).at' idx = a.at' T := by
  simp only [transpose]
  congr 1
  apply List.ext_getElem (by simp [hT])
  intro i h1 h2
  simp only [List.getElem_map, List.getElem_range]
  rw [← h, gather_idxOf (hn i (by simpa using h1))]
  simp [List.getD, h2]

theorem insert_back (ds : List ℕ) : ∀ (idx : List Bool), ds.Pairwise (· < ·) → (∀ d ∈ ds, d < idx.length) →
    ds.foldl (fun o d => o.insertIdx d (idx.getD d false)) (gather idx (free idx.length ds)) = idx := by
  induction ds using List.reverseRecOn with
  | nil =>
    intro idx _ _
    have : free idx.length [] = List.range idx.length := by simp [free]
    rw [List.foldl_nil, this, gather_range]
  | append_singleton ds d ih =>
    intro idx hp hr
    have hd : d < idx.length := hr d (by simp)
    rw [List.pairwise_append] at hp
    have hlt : ∀ d' ∈ ds, d' < d := fun d' h => hp.2.2 d' h d (by simp)
    obtain ⟨A, x, B, rfl, hA⟩ : ∃ A x B, idx = A ++ x :: B ∧ A.length = d :=
      ⟨idx.take d, idx[d], idx.drop (d + 1), by simp, by simp; omega⟩
    have hltA : ∀ d' ∈ ds, d' < A.length := fun d' h => by rw [hA]; exact hlt d' h
    have f1 : free (A ++ x :: B).length (ds ++ [d]) = free d ds ++ (List.range B.length).map (· + (d + 1)) := by
      rw [show (A ++ x :: B).length = (d + 1) + B.length by simp [hA]; omega, free_left (by
        intro a ha; rw [List.mem_append, List.mem_singleton] at ha
        rcases ha with ha | ha
        · have := hlt a ha; omega
        · omega)]
      congr 1
      rw [free, List.range_succ, List.filter_append]
      have e1 : (List.range d).filter (fun a => decide (a ∉ ds ++ [d])) = free d ds := by
        apply List.filter_congr
        intro a ha
        have : a ≠ d := by have := List.mem_range.1 ha; omega
        simp [this]
      rw [e1]; simp
    have f2 : free (A ++ B).length ds = free d ds ++ (List.range B.length).map (· + d) := by
      rw [List.length_append, hA, free_left hlt]
    have hfA : ∀ a ∈ free d ds, a < A.length := fun a ha => by rw [hA]; exact (mem_free.1 ha).1
    have e : gather (A ++ x :: B) (free (A ++ x :: B).length (ds ++ [d])) = gather (A ++ B) (free (A ++ B).length ds) := by
      rw [f1, f2, gather_append, gather_append, gather_left hfA, gather_left hfA, gather_right _ hA]
      rw [show A ++ x :: B = (A ++ [x]) ++ B by simp, gather_right (x := A ++ [x]) _ (by simp [hA])]
    have ih' := ih (A ++ B) hp.1 (fun d' h => by have := hltA d' h; simp; omega)
    rw [List.foldl_append, e]
    have e3 : ds.foldl (fun o d => o.insertIdx d ((A ++ x :: B).getD d false)) (gather (A ++ B) (free (A ++ B).length ds)) =
        ds.foldl (fun o d => o.insertIdx d ((A ++ B).getD d false)) (gather (A ++ B) (free (A ++ B).length ds)) := by
      apply List.foldl_ext
      intro o d' h
      have := hltA d' h
      simp [List.getD, List.getElem?_append_left this]
    rw [e3, ih']
    simp only [List.foldl_cons, List.foldl_nil]
    subst hA
    have hins : ∀ (A B : List Bool) (x : Bool), (A ++ B).insertIdx A.length x = A ++ x :: B := by
      intro A B x
      induction A with
      | nil => simp
      | cons a A ih => simp [ih]
    rw [hins]
    simp [List.getD]

theorem map_foldl_insertIdx (f : ℕ → Bool) (ps : List (ℕ × ℕ)) : ∀ o : List ℕ,
    (ps.foldl (fun o p => o.insertIdx p.1 p.2) o).map f = ps.foldl (fun o p => o.insertIdx p.1 (f p.2)) (o.map f) := by
  induction ps with
  | nil => intro o; rfl
  | cons p ps ih => intro o; simp only [List.foldl_cons]; rw [ih]; congr 1; rw [List.map_insertIdx]

theorem free_congr {nd : ℕ} {a b : List ℕ} (h : ∀ x, x ∈ a ↔ x ∈ b) : free nd a = free nd b := by
  apply List.filter_congr; intro x _; simp [h]

theorem foldl_insertIdx_mem (ps : List (ℕ × ℕ)) : ∀ (o : List ℕ) (x : ℕ),
    (ps.map (·.1)).Pairwise (· < ·) → (∀ p ∈ ps, p.1 < o.length + ps.length) →
    (x ∈ o ∨ x ∈ ps.map (·.2)) → x ∈ ps.foldl (fun o p => o.insertIdx p.1 p.2) o := by
  induction ps using List.reverseRecOn with
  | nil => intro o x _ _ h; simpa using h
  | append_singleton ps p ih =>
    intro o x hp hr hx
    rw [List.map_append, List.pairwise_append] at hp
    have hlt : ∀ q ∈ ps, q.1 < p.1 := fun q hq => hp.2.2 q.1 (List.mem_map_of_mem hq) p.1 (by simp)
    have hp1 := hr p (by simp)
    simp only [List.length_append, List.length_singleton] at hp1
    have hlen : ∀ (ps : List (ℕ × ℕ)) (o : List ℕ), (ps.map (·.1)).Pairwise (· < ·) → (∀ p ∈ ps, p.1 < o.length + ps.length) →
        (ps.foldl (fun o p => o.insertIdx p.1 p.2) o).length = o.length + ps.length := by
      intro ps
      induction ps using List.reverseRecOn with
      | nil => intro o _ _; rfl
      | append_singleton ps p ih =>
        intro o hp hr
        rw [List.map_append, List.pairwise_append] at hp
        have hlt : ∀ q ∈ ps, q.1 < p.1 := fun q hq => hp.2.2 q.1 (List.mem_map_of_mem hq) p.1 (by simp)
        have hp1 := hr p (by simp)
        simp only [List.length_append, List.length_singleton] at hp1
        have e := ih o hp.1 (fun q hq => by have := hlt q hq; omega)
        rw [List.foldl_append, List.foldl_cons, List.foldl_nil, List.length_insertIdx_of_le_length (by rw [e]; omega), e]
        simp; omega
    have hsub : ∀ q ∈ ps, q.1 < o.length + ps.length := fun q hq => by have := hlt q hq; omega
    have e := hlen ps o hp.1 hsub
    rw [List.foldl_append, List.foldl_cons, List.foldl_nil, List.mem_insertIdx (by rw [e]; omega)]
    rw [List.map_append, List.mem_append] at hx
    rcases hx with hx | hx | hx
    · right; exact ih o x hp.1 hsub (Or.inl hx)
    · right; exact ih o x hp.1 hsub (Or.inr hx)
    · left; simpa using hx

/-- What `moveaxis` reads: `T` has, at the sources, the indices of the destinations and, at the other axes, in order, the
indices of the other axes. -/
theorem moveaxis_at {a : NdArray} {source destination : List ℤ} {src dst : List ℕ} {idx T : List Bool}
    (hs : source.map (normAxis a.ndim) = src) (hd : destination.map (normAxis a.ndim) = dst)
    (hsn : src.Nodup) (hdn : dst.Nodup) (hsr : ∀ x ∈ src, x < a.ndim) (hdr : ∀ x ∈ dst, x < a.ndim)
    (hlen : src.length = dst.length) (hT : T.length = a.ndim) (hi : idx.length = a.ndim)
    (h1 : gather T src = gather idx dst) (h2 : gather T (free a.ndim src) = gather idx (free a.ndim dst)) :
    (a.moveaxis source destination).at' idx = a.at' T := by
  unfold moveaxis
  rw [hs, hd]
  set ps := (dst.zip src).mergeSort fun p q => p.1 ≤ q.1 with hps
  have hperm : ps.Perm (dst.zip src) := List.mergeSort_perm _ _
  have hsorted : ps.Pairwise (fun p q => p.1 ≤ q.1) := by
    have := List.pairwise_mergeSort (le := fun p q : ℕ × ℕ => decide (p.1 ≤ q.1)) (by simp; intros; omega) (by simp; intros; omega)
      (dst.zip src)
    simpa using this
  have hfst : (ps.map (·.1)).Perm dst := by
    have := hperm.map (·.1)
    rwa [List.map_fst_zip hlen.ge] at this
  have hsnd : (ps.map (·.2)).Perm src := by
    have := hperm.map (·.2)
    rwa [List.map_snd_zip hlen.le] at this
  have hlt : (ps.map (·.1)).Pairwise (· < ·) := by
    have h3 : (ps.map (·.1)).Pairwise (· ≤ ·) := by rw [List.pairwise_map]; exact hsorted
    have h4 : (ps.map (·.1)).Nodup := hfst.nodup_iff.2 hdn
    exact (List.pairwise_and_iff.2 ⟨h3, h4⟩).imp (fun h => lt_of_le_of_ne h.1 h.2)
  have hpl : ps.length = src.length := by rw [hperm.length_eq, List.length_zip, hlen]; simp
  have hfl : (free a.ndim src).length + ps.length = a.ndim := by
    have hle : src.length ≤ a.ndim := by
      have := (List.subperm_of_subset hsn (l₂ := List.range a.ndim) (fun x hx => by simpa using hsr x hx)).length_le
      simpa using this
    rw [free_length hsn hsr, hpl]; omega
  have hval : ∀ p ∈ ps, T.getD p.2 false = idx.getD p.1 false := by
    intro p hp
    have hp' := hperm.mem_iff.1 hp
    obtain ⟨i, hi', rfl⟩ := List.mem_iff_getElem.1 hp'
    rw [List.getElem_zip]
    have hi1 : i < dst.length := by simp at hi'; omega
    have hi2 : i < src.length := by simp at hi'; omega
    have := congrArg (fun l => l.getD i false) h1
    simpa [gather, List.getD, hi1, hi2] using this
  apply transpose_at hT
  · intro ax hax
    apply foldl_insertIdx_mem ps
    · exact hlt
    · intro p hp
      rw [hfl]; exact hdr _ (hfst.mem_iff.1 (List.mem_map_of_mem hp))
    · by_cases h : ax ∈ src
      · right; exact hsnd.mem_iff.2 h
      · left; exact mem_free.2 ⟨hax, h⟩
  · unfold moveOrder
    rw [← hps]
    rw [gather, map_foldl_insertIdx]
    have e1 : ∀ o : List Bool, ps.foldl (fun o p => o.insertIdx p.1 (T.getD p.2 false)) o =
        (ps.map (·.1)).foldl (fun o d => o.insertIdx d (idx.getD d false)) o := by
      intro o
      rw [List.foldl_map]
      apply List.foldl_ext
      intro o p hp
      rw [hval p hp]
    rw [e1]
    have e2 : (free a.ndim src).map (fun x => T.getD x false) = gather idx (free idx.length (ps.map (·.1))) := by
      rw [hi, free_congr (fun x => hfst.mem_iff (a := x)), ← h2]; rfl
    rw [e2]
    apply insert_back _ _ hlt
    intro d hd'
    rw [hi]; exact hdr _ (hfst.mem_iff.1 hd')

end NdArray
end Graphix
