import Verif.Model.DensityMatrix
import Verif.Proofs.Tensor

/-! # The operations of density matrices, entry by entry -/

namespace Graphix

open NdArray

/-- The bits `x` with `s` at the positions `qs`. -/
def putBits (x : List Bool) (qs : List ℕ) (s : List Bool) : List Bool := merge x.length qs s (gather x (free x.length qs))

@[simp] theorem putBits_length (x : List Bool) (qs : List ℕ) (s : List Bool) : (putBits x qs s).length = x.length := by
  simp [putBits]

theorem putBits_eq {x : List Bool} {qs : List ℕ} {s T : List Bool} (h : T.length = x.length) (h1 : gather T qs = s)
    (h2 : gather T (free x.length qs) = gather x (free x.length qs)) : putBits x qs s = T := merge_eq h h1 h2

theorem gather_putBits {x : List Bool} {qs : List ℕ} {s : List Bool} (hn : qs.Nodup) (hr : ∀ q ∈ qs, q < x.length)
    (hs : s.length = qs.length) : gather (putBits x qs s) qs = s := gather_merge _ hn hr hs

theorem gather_putBits_free (x : List Bool) (qs : List ℕ) (s : List Bool) :
    gather (putBits x qs s) (free x.length qs) = gather x (free x.length qs) := gather_merge_free _ (by simp)

/-- Shape of a density matrix on `n` qubits. -/
def DensityMatrix.Shape (dm : DensityMatrix) (n : ℕ) : Prop := dm.rho.rows = 2 ^ n ∧ dm.rho.cols = 2 ^ n

theorem DensityMatrix.Shape.nqubit {dm : DensityMatrix} {n : ℕ} (h : dm.Shape n) : dm.nqubit = n := by
  unfold DensityMatrix.nqubit; rw [h.1, Nat.log2_two_pow]

theorem merge_snd_half {k : ℕ} {s vals : List Bool} (hs : s.length = k) (hv : vals.length = k) :
    merge (2 * k) ((List.range k).map (k + ·)) s vals = vals ++ s := by
  have e : (List.range k).map (k + ·) = (List.range k).map (· + k) := List.map_congr_left (fun a _ => by omega)
  rw [e, two_mul]
  apply merge_eq
  · simp [hs, hv]
  · rw [gather_right _ hv, gather_range' hs]
  · rw [free_right]
    have : free k (List.range k) = [] := by simp [free]
    rw [this, List.map_nil, List.append_nil, gather_left (by simp [hv]), gather_range' hv]

theorem free_snd_half (k : ℕ) : (free (2 * k) ((List.range k).map (k + ·))).length = k := by
  have e : (List.range k).map (k + ·) = (List.range k).map (· + k) := List.map_congr_left (fun a _ => by omega)
  rw [e, two_mul, free_right]
  have : free k (List.range k) = [] := by simp [free]
  simp [this]

theorem merge_fst_half {k : ℕ} {s vals : List Bool} (hs : s.length = k) (hv : vals.length = k) :
    merge (2 * k) (List.range k) s vals = s ++ vals := by
  rw [two_mul]
  apply merge_eq
  · simp [hs, hv]
  · rw [gather_left (by simp [hs]), gather_range' hs]
  · rw [free_range, gather_right _ hs, gather_range' hv]

theorem normAxis_pos (nd i : ℕ) : normAxis nd (i : ℤ) = i := by
  unfold normAxis; rw [if_neg (by omega)]; rfl

theorem normAxis_neg {nd i : ℕ} : normAxis nd (-(i + 1 : ℤ)) = nd - (i + 1) := by
  unfold normAxis; rw [if_pos (by omega)]; omega

theorem nodup_le {qs : List ℕ} {n : ℕ} (hn : qs.Nodup) (hr : ∀ q ∈ qs, q < n) : qs.length ≤ n := by
  have := (List.subperm_of_subset hn (l₂ := List.range n) (fun x hx => by simpa using hr x hx)).length_le
  simpa using this

theorem take_append_len {α : Type} {a b : List α} {n : ℕ} (h : a.length = n) : (a ++ b).take n = a := by
  subst h; simp

theorem drop_append_len {α : Type} {a b : List α} {n : ℕ} (h : a.length = n) : (a ++ b).drop n = b := by
  subst h; simp

/-- The entries computed by `evolve`: `op ρ op†` on the qubits `qs`. -/
theorem evolveCore_entry {dm : DensityMatrix} {n : ℕ} (hd : dm.Shape n) (op : NpMat) (qs : List ℕ) (hn : qs.Nodup)
    (hr : ∀ q ∈ qs, q < n) (x y : List Bool) (hx : x.length = n) (hy : y.length = n) :
    (dm.evolveCore op qs).rho.entry (ofBits x) (ofBits y) =
      ∑ t ∈ bitSet qs.length, (∑ s ∈ bitSet qs.length, op.entry (ofBits (gather x qs)) (ofBits s) *
        dm.rho.entry (ofBits (putBits x qs s)) (ofBits (putBits y qs t))) * star (op.entry (ofBits (gather y qs)) (ofBits t)) := by
  have hk : qs.length ≤ n := nodup_le hn hr
  set k := qs.length with hkdef
  have hfree : (free n qs).length = n - k := free_length hn hr
  unfold DensityMatrix.evolveCore
  simp only [hd.nqubit, ← hkdef]
  set t1 := ((op.reshape k).tensordot (dm.rho.reshape n) ((List.range k).map (k + ·)) qs) with ht1
  set t2 := t1.tensordot (op.dagger.reshape k) (qs.map (· + n)) (List.range k) with ht2
  have hfA : (free (op.reshape k).ndim ((List.range k).map (k + ·))).length = k := free_snd_half k
  have hfB : free (2 * n) qs = free n qs ++ (List.range n).map (· + n) := by rw [two_mul, free_left hr]
  have hnd1 : t1.ndim = n + n := by
    rw [ht1]; simp only [tensordot, hfA]
    rw [show (dm.rho.reshape n).ndim = 2 * n from rfl, hfB]
    simp [hfree]; omega
  have hfC : free (n + n) (qs.map (· + n)) = List.range n ++ (free n qs).map (· + n) := free_right qs
  have hfClen : (free t1.ndim (qs.map (· + n))).length = n + (n - k) := by rw [hnd1, hfC]; simp [hfree]
  have hfD : (free (op.dagger.reshape k).ndim (List.range k)).length = k := by
    rw [show (op.dagger.reshape k).ndim = k + k by simp [NpMat.reshape, two_mul], free_range]; simp
  have hnd2 : t2.ndim = 2 * n := by
    rw [ht2]; simp only [tensordot]
    rw [hfClen, hfD]; omega
  -- the index read in `t2`
  set T : List Bool := (gather x qs ++ gather x (free n qs)) ++ (gather y (free n qs) ++ gather y qs) with hT
  have hxq : (gather x qs ++ gather x (free n qs)).length = n := by simp [hfree]; omega
  have hyq : (gather y (free n qs) ++ gather y qs).length = n := by simp [hfree]; omega
  have hTlen : T.length = 2 * n := by rw [hT, List.length_append, hxq, hyq]; omega
  have hsrc : ((List.range k).map (fun (i : ℕ) => (i : ℤ)) ++ (List.range k).map (fun (i : ℕ) => -(i + 1 : ℤ))).map (normAxis t2.ndim) =
      List.range k ++ (List.range k).map (fun i => 2 * n - (i + 1)) := by
    rw [List.map_append, List.map_map, List.map_map, hnd2]
    congr 1
    · conv_rhs => rw [← List.map_id (List.range k)]
      exact List.map_congr_left (fun i _ => normAxis_pos _ _)
    · exact List.map_congr_left (fun i _ => normAxis_neg)
  have hdst : (qs.map (fun (i : ℕ) => (i : ℤ)) ++ qs.reverse.map (fun (i : ℕ) => (i + n : ℤ))).map (normAxis t2.ndim) =
      qs ++ qs.reverse.map (· + n) := by
    rw [List.map_append, List.map_map, List.map_map]
    congr 1
    · conv_rhs => rw [← List.map_id qs]
      exact List.map_congr_left (fun i _ => normAxis_pos _ _)
  have hrevsrc : (List.range k).map (fun i => 2 * n - (i + 1)) = ((List.range k).map (· + (2 * n - k))).reverse := by
    apply List.ext_getElem (by simp)
    intro i h1 h2
    simp only [List.length_map, List.length_range] at h1
    simp only [List.getElem_map, List.getElem_range, List.getElem_reverse, List.length_map, List.length_range]
    omega
  have hTsplit : T = (gather x qs ++ gather x (free n qs) ++ gather y (free n qs)) ++ gather y qs := by rw [hT]; simp
  have hread : (t2.moveaxis ((List.range k).map (fun (i : ℕ) => (i : ℤ)) ++ (List.range k).map (fun (i : ℕ) => -(i + 1 : ℤ)))
      (qs.map (fun (i : ℕ) => (i : ℤ)) ++ qs.reverse.map (fun (i : ℕ) => (i + n : ℤ)))).at' (x ++ y) = t2.at' T := by
    apply moveaxis_at hsrc hdst
    · rw [List.nodup_append]
      refine ⟨List.nodup_range, ?_, ?_⟩
      · rw [hrevsrc, List.nodup_reverse]
        exact List.nodup_range.map (fun a b h => by simpa using h)
      · intro a ha b hb
        simp only [List.mem_range, List.mem_map] at ha hb
        obtain ⟨i, hi, rfl⟩ := hb
        omega
    · rw [List.nodup_append]
      refine ⟨hn, ?_, ?_⟩
      · exact (List.nodup_reverse.2 hn).map (fun a b h => by simpa using h)
      · intro a ha b hb
        simp only [List.mem_map, List.mem_reverse] at hb
        obtain ⟨i, hi, rfl⟩ := hb
        have := hr a ha; omega
    · intro a ha
      simp only [List.mem_append, List.mem_range, List.mem_map] at ha
      rcases ha with ha | ⟨i, hi, rfl⟩ <;> omega
    · intro a ha
      simp only [List.mem_append, List.mem_map, List.mem_reverse] at ha
      rcases ha with ha | ⟨i, hi, rfl⟩
      · have := hr a ha; omega
      · have := hr i hi; omega
    · simp [← hkdef]
    · rw [hTlen, hnd2]
    · simp [hx, hy, hnd2]; omega
    · rw [gather_append, gather_append]
      congr 1
      · rw [hT, List.append_assoc, gather_left (by simp [← hkdef]), gather_range' (by simp [hkdef]), gather_left (by rw [hx]; exact hr)]
      · rw [hrevsrc, hTsplit]
        have e1 : ∀ (T : List Bool) (l : List ℕ), gather T l.reverse = (gather T l).reverse := by
          intro T l; simp [gather]
        rw [e1, gather_right _ (by simp [hfree]; omega), gather_range' (by simp [hkdef])]
        rw [List.map_reverse, e1, gather_right _ hx]
    · rw [hnd2, hrevsrc]
      have f1 : free (2 * n) (List.range k ++ ((List.range k).map (· + (2 * n - k))).reverse) =
          (List.range (2 * n - k - k)).map (· + k) := by
        have h3 : 2 * n = (2 * n - k) + k := by omega
        have h4 : 2 * n - k = k + (2 * n - k - k) := by omega
        have e2 : free (2 * n) (List.range k ++ ((List.range k).map (· + (2 * n - k))).reverse) =
            (free (2 * n) ((List.range k).map (· + (2 * n - k)))).filter (· ∉ List.range k) := by
          unfold free
          rw [List.filter_filter]
          apply List.filter_congr
          intro a _
          simp only [List.mem_append, List.mem_reverse, not_or, Bool.decide_and]
        rw [e2]
        have e5 : free (2 * n) ((List.range k).map (· + (2 * n - k))) = free ((2 * n - k) + k) ((List.range k).map (· + (2 * n - k))) := by
          rw [← h3]
        rw [e5, free_right]
        have : free k (List.range k) = [] := by simp [free]
        rw [this, List.map_nil, List.append_nil]
        have e6 := free_range k (2 * n - k - k)
        rw [← h4] at e6
        exact e6
      have f2 : free (2 * n) (qs ++ qs.reverse.map (· + n)) = free n qs ++ (free n qs).map (· + n) := by
        have e2 : free (2 * n) (qs ++ qs.reverse.map (· + n)) = (free (n + n) (qs.map (· + n))).filter (· ∉ qs) := by
          unfold free
          rw [List.filter_filter, two_mul]
          apply List.filter_congr
          intro a _
          simp only [List.mem_append, List.mem_map, List.mem_reverse, not_or, Bool.decide_and]
        rw [e2, free_right, List.filter_append]
        congr 1
        rw [List.filter_eq_self]
        intro a ha
        simp only [List.mem_map] at ha
        obtain ⟨i, -, rfl⟩ := ha
        rw [decide_eq_true_eq]
        intro hc; have := hr _ hc; omega
      rw [f1, f2, gather_append, gather_right _ hx,
        gather_left (x := x) (fun a ha => by rw [hx]; exact (mem_free.1 ha).1), hT,
        List.append_assoc, gather_right _ (by simp [hkdef])]
      rw [← List.append_assoc, gather_left (by simp [hfree]; omega), gather_range' (by simp [hfree]; omega)]
  simp only [NpMat.ofTensor]
  rw [show toBits n (ofBits x) = x by rw [← hx]; exact toBits_ofBits x,
    show toBits n (ofBits y) = y by rw [← hy]; exact toBits_ofBits y, hread, ht2]
  simp only [tensordot, hfClen, List.length_map, ← hkdef]
  refine Finset.sum_congr rfl (fun t ht => ?_)
  rw [mem_bitSet] at ht
  have htake : T.take (n + (n - k)) = (gather x qs ++ gather x (free n qs)) ++ gather y (free n qs) := by
    rw [hTsplit]; exact take_append_len (by simp [hfree]; omega)
  have hdrop : T.drop (n + (n - k)) = gather y qs := by
    rw [hTsplit]; exact drop_append_len (by simp [hfree]; omega)
  rw [htake, hdrop, show (op.dagger.reshape k).ndim = 2 * k from rfl, merge_fst_half ht (by simp [hkdef]), hnd1]
  have hm : merge (n + n) (qs.map (· + n)) t ((gather x qs ++ gather x (free n qs)) ++ gather y (free n qs)) =
      (gather x qs ++ gather x (free n qs)) ++ putBits y qs t := by
    apply merge_eq
    · rw [List.length_append, hxq]; simp [hy]
    · rw [gather_right _ hxq, gather_putBits hn (by rw [hy]; exact hr) ht]
    · rw [hfC, gather_append, gather_right _ hxq, gather_left (by rw [hxq]; simp), gather_range' hxq]
      congr 1
      have := gather_putBits_free y qs t
      rw [hy] at this
      exact this
  rw [hm]
  have hdag : (op.dagger.reshape k).at' (t ++ gather y qs) = star (op.entry (ofBits (gather y qs)) (ofBits t)) := by
    simp only [NpMat.reshape, NpMat.dagger]
    rw [take_append_len ht, drop_append_len ht]
  rw [hdag]
  congr 1
  rw [ht1]
  simp only [tensordot, hfA, List.length_map, List.length_range]
  refine Finset.sum_congr rfl (fun s hs => ?_)
  rw [mem_bitSet] at hs
  rw [List.append_assoc, take_append_len (by simp [hkdef]), drop_append_len (by simp [hkdef]),
    show (op.reshape k).ndim = 2 * k from rfl, merge_snd_half hs (by simp [hkdef]), show (dm.rho.reshape n).ndim = 2 * n from rfl]
  have hm2 : merge (2 * n) qs s (gather x (free n qs) ++ putBits y qs t) = putBits x qs s ++ putBits y qs t := by
    apply merge_eq
    · simp [hx, hy]; omega
    · rw [gather_left (by simp [hx]; exact hr), gather_putBits hn (by rw [hx]; exact hr) hs]
    · rw [hfB, gather_append, gather_right _ (by simp [hx]), gather_range' (by simp [hy]),
        gather_left (fun a ha => by simp [hx]; exact (mem_free.1 ha).1)]
      congr 1
      have := gather_putBits_free x qs s
      rw [hx] at this
      exact this
  rw [hm2]
  simp only [NpMat.reshape]
  rw [take_append_len (a := gather x qs) (by simp [hkdef]), drop_append_len (a := gather x qs) (by simp [hkdef]),
    take_append_len (a := putBits x qs s) (by simp [hx]), drop_append_len (a := putBits x qs s) (by simp [hx])]

/-- The entries computed by `expectation_single` before taking the trace: `op ρ` on qubit `q`. -/
theorem expectation_entry {rho : NpMat} {n : ℕ} (op : NpMat) (q : ℕ)
    (hq : q < n) (x y : List Bool) (hx : x.length = n) (hy : y.length = n) :
    (NpMat.ofTensor n (((op.reshape 1).tensordot (rho.reshape n) [1] [q]).moveaxis [0] [(q : ℤ)])).entry (ofBits x) (ofBits y) =
      ∑ s ∈ bitSet 1, op.entry (ofBits (gather x [q])) (ofBits s) * rho.entry (ofBits (putBits x [q] s)) (ofBits y) := by
  have hr : ∀ a ∈ [q], a < n := by simpa using hq
  have hfree : (free n [q]).length = n - 1 := free_length (by simp) hr
  set t1 := (op.reshape 1).tensordot (rho.reshape n) [1] [q] with ht1
  have hfA : (free (op.reshape 1).ndim [1]).length = 1 := free_snd_half 1
  have hfB : free (2 * n) [q] = free n [q] ++ (List.range n).map (· + n) := by rw [two_mul, free_left hr]
  have hnd1 : t1.ndim = 2 * n := by
    rw [ht1]; simp only [tensordot, hfA]
    rw [show (rho.reshape n).ndim = 2 * n from rfl, hfB]
    simp [hfree]; omega
  set T : List Bool := gather x [q] ++ (gather x (free n [q]) ++ y) with hT
  have hTlen : T.length = 2 * n := by simp [hT, hfree, hy]; omega
  have hread : (t1.moveaxis [0] [(q : ℤ)]).at' (x ++ y) = t1.at' T := by
    apply moveaxis_at (src := [0]) (dst := [q])
    · rw [List.map_singleton, show (0 : ℤ) = ((0 : ℕ) : ℤ) from rfl, normAxis_pos]
    · rw [List.map_singleton, normAxis_pos]
    · simp
    · simp
    · intro a ha; simp at ha; subst ha; omega
    · intro a ha; simp at ha; subst ha; omega
    · rfl
    · rw [hTlen, hnd1]
    · simp [hx, hy, hnd1]; omega
    · rw [gather_left (x := x) (by rw [hx]; exact hr)]
      simp [gather, hT]
    · rw [hnd1, hfB, gather_append, gather_right _ hx, gather_range' hy, gather_left (x := x) (fun a ha => by
        rw [hx]; exact (mem_free.1 ha).1)]
      have f1 : free (2 * n) [0] = (List.range (2 * n - 1)).map (· + 1) := by
        have := free_range 1 (2 * n - 1)
        rwa [show 1 + (2 * n - 1) = 2 * n by omega] at this
      rw [f1, hT, gather_right _ (by simp), gather_range' (by simp [hfree, hy]; omega)]
  simp only [NpMat.ofTensor]
  rw [show toBits n (ofBits x) = x by rw [← hx]; exact toBits_ofBits x,
    show toBits n (ofBits y) = y by rw [← hy]; exact toBits_ofBits y, hread, ht1]
  simp only [tensordot, hfA, List.length_singleton]
  refine Finset.sum_congr rfl (fun s hs => ?_)
  rw [mem_bitSet] at hs
  have h1 : merge (op.reshape 1).ndim [1] s (gather x [q]) = gather x [q] ++ s := merge_snd_half (k := 1) hs (by simp)
  rw [hT, take_append_len (by simp), drop_append_len (by simp), h1, show (rho.reshape n).ndim = 2 * n from rfl]
  have hm2 : merge (2 * n) [q] s (gather x (free n [q]) ++ y) = putBits x [q] s ++ y := by
    apply merge_eq
    · simp [hx, hy]; omega
    · rw [gather_left (by simp [hx]; exact hq), gather_putBits (by simp) (by rw [hx]; exact hr) hs]
    · rw [hfB, gather_append, gather_right _ (by simp [hx]), gather_range' hy,
        gather_left (fun a ha => by simp [hx]; exact (mem_free.1 ha).1)]
      congr 1
      have := gather_putBits_free x [q] s
      rw [hx] at this
      exact this
  rw [hm2]
  simp only [NpMat.reshape]
  rw [take_append_len (a := gather x [q]) (by simp), drop_append_len (a := gather x [q]) (by simp),
    take_append_len (a := putBits x [q] s) (by simp [hx]), drop_append_len (a := putBits x [q] s) (by simp [hx])]

theorem ofBits_inj {a b : List Bool} (h : a.length = b.length) (e : ofBits a = ofBits b) : a = b := by
  rw [← toBits_ofBits a, ← toBits_ofBits b, h, e]

theorem sum_bitSet_add {M : Type} [AddCommMonoid M] (k m : ℕ) (f : List Bool → M) :
    ∑ s ∈ bitSet (k + m), f s = ∑ a ∈ bitSet k, ∑ b ∈ bitSet m, f (a ++ b) := by
  rw [← Finset.sum_product']
  symm
  refine Finset.sum_bij' (fun p _ => p.1 ++ p.2) (fun s _ => (s.take k, s.drop k)) ?_ ?_ ?_ ?_ ?_
  · intro p hp; rw [Finset.mem_product, mem_bitSet, mem_bitSet] at hp; rw [mem_bitSet]; simp [hp.1, hp.2]
  · intro s hs; rw [mem_bitSet] at hs; rw [Finset.mem_product, mem_bitSet, mem_bitSet]; simp [hs]
  · intro p hp; rw [Finset.mem_product, mem_bitSet, mem_bitSet] at hp; simp [hp.1]
  · intro s _; simp
  · intro p _; rfl

/-- The entries computed by `ptrace`. -/
theorem ptrace_entry {rho : NpMat} {n : ℕ} (qs : List ℕ) (hn : qs.Nodup) (hr : ∀ q ∈ qs, q < n)
    (x y : List Bool) (hx : x.length = n - qs.length) (hy : y.length = n - qs.length) :
    (NpMat.ofTensor (n - qs.length) (((NpMat.eye (2 ^ qs.length)).reshape qs.length).tensordot (rho.reshape n)
      (List.range (2 * qs.length)) (qs ++ qs.map (n + ·)))).entry (ofBits x) (ofBits y) =
      ∑ s ∈ bitSet qs.length, rho.entry (ofBits (merge n qs s x)) (ofBits (merge n qs s y)) := by
  set k := qs.length with hkdef
  have hfree : (free n qs).length = n - k := free_length hn hr
  have e : qs.map (n + ·) = qs.map (· + n) := List.map_congr_left (fun a _ => by omega)
  simp only [NpMat.ofTensor]
  rw [show toBits (n - k) (ofBits x) = x by rw [← hx]; exact toBits_ofBits x,
    show toBits (n - k) (ofBits y) = y by rw [← hy]; exact toBits_ofBits y]
  have f0 : free ((NpMat.eye (2 ^ k)).reshape k).ndim (List.range (2 * k)) = [] := by
    simp [NpMat.reshape, free]
  have f2 : free (n + n) (qs ++ qs.map (· + n)) = free n qs ++ (free n qs).map (· + n) := by
    have e2 : free (n + n) (qs ++ qs.map (· + n)) = (free (n + n) (qs.map (· + n))).filter (· ∉ qs) := by
      unfold free
      rw [List.filter_filter]
      apply List.filter_congr
      intro a _
      simp only [List.mem_append, not_or, Bool.decide_and]
    rw [e2, free_right, List.filter_append]
    congr 1
    rw [List.filter_eq_self]
    intro a ha
    simp only [List.mem_map] at ha
    obtain ⟨i, -, rfl⟩ := ha
    rw [decide_eq_true_eq]
    intro hc; have := hr _ hc; omega
  simp only [tensordot, f0, List.length_nil, List.take_zero, List.drop_zero, List.length_range]
  rw [two_mul, sum_bitSet_add]
  refine Finset.sum_congr rfl (fun s hs => ?_)
  rw [mem_bitSet] at hs
  rw [Finset.sum_eq_single s]
  · have h1 : merge ((NpMat.eye (2 ^ k)).reshape k).ndim (List.range (k + k)) (s ++ s) [] = s ++ s := by
      apply merge_eq
      · simp [NpMat.reshape, hs]; omega
      · exact gather_range' (by simp [hs])
      · rw [← two_mul, f0]; rfl
    rw [h1, e, show (rho.reshape n).ndim = n + n by simp [NpMat.reshape, two_mul]]
    have h2 : merge (n + n) (qs ++ qs.map (· + n)) (s ++ s) (x ++ y) = merge n qs s x ++ merge n qs s y := by
      apply merge_eq
      · simp
      · rw [gather_append, gather_right _ (by simp), gather_left (by simpa using hr), gather_merge _ hn hr hs, gather_merge _ hn hr hs]
      · rw [f2, gather_append, gather_right _ (by simp), gather_left (fun a ha => by simpa using (mem_free.1 ha).1),
          gather_merge_free _ (by rw [hfree, hx]), gather_merge_free _ (by rw [hfree, hy])]
    rw [h2]
    simp only [NpMat.reshape, NpMat.eye]
    rw [take_append_len hs, drop_append_len hs, if_pos rfl, one_mul, take_append_len (by simp), drop_append_len (by simp)]
  · intro t ht hne
    rw [mem_bitSet] at ht
    have h1 : merge ((NpMat.eye (2 ^ k)).reshape k).ndim (List.range (k + k)) (s ++ t) [] = s ++ t := by
      apply merge_eq
      · simp [NpMat.reshape, hs, ht]; omega
      · exact gather_range' (by simp [hs, ht])
      · rw [← two_mul, f0]; rfl
    rw [h1]
    simp only [NpMat.reshape, NpMat.eye]
    rw [take_append_len hs, drop_append_len hs, if_neg, zero_mul]
    intro hc
    exact hne (ofBits_inj (by rw [hs, ht]) hc).symm
  · intro h; rw [mem_bitSet] at h; exact absurd hs h

/-- The entries computed by `permute`. -/
theorem permute_entry {rho : NpMat} {n : ℕ} (perm : List ℕ) (hall : ∀ a < n, a ∈ perm) (hr : ∀ a ∈ perm, a < n) (hlen : perm.length = n)
    (x y : List Bool) (hx : x.length = n) (hy : y.length = n) :
    (NpMat.ofTensor n ((rho.reshape n).transpose (perm ++ perm.map (· + n)))).entry (ofBits (gather x perm)) (ofBits (gather y perm)) =
      rho.entry (ofBits x) (ofBits y) := by
  simp only [NpMat.ofTensor]
  have e1 : toBits n (ofBits (gather x perm)) = gather x perm := by
    have := toBits_ofBits (gather x perm); rwa [gather_length, hlen] at this
  have e2 : toBits n (ofBits (gather y perm)) = gather y perm := by
    have := toBits_ofBits (gather y perm); rwa [gather_length, hlen] at this
  rw [e1, e2, transpose_at (T := x ++ y)]
  · simp only [NpMat.reshape]
    rw [take_append_len hx, drop_append_len hx]
  · simp [hx, hy, NpMat.reshape]; omega
  · intro ax hax
    simp only [NpMat.reshape] at hax
    rw [List.mem_append, List.mem_map]
    by_cases h : ax < n
    · left; exact hall ax h
    · right; exact ⟨ax - n, hall _ (by omega), by omega⟩
  · rw [gather_append, gather_right _ hx, gather_left (by rw [hx]; exact hr)]

end Graphix
