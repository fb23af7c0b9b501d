import Verif.Model.RandomObjects
import Verif.Props.Channels
import Verif.Props.RandomCircuit
import Mathlib.LinearAlgebra.Matrix.Rank
import Mathlib.LinearAlgebra.UnitaryGroup

/-!
# C66: random matrices, states and channels
-/

namespace Graphix

open scoped MatrixOrder ComplexOrder

/-- **C66** `rand_herm` is Hermitian, whatever is drawn. -/
theorem C66_rand_herm {sz : ℕ} (re im : Matrix (Fin sz) (Fin sz) ℝ) : (randHerm re im).IsHermitian := by
  unfold randHerm Matrix.IsHermitian
  dsimp only
  rw [Matrix.conjTranspose_add, Matrix.conjTranspose_conjTranspose, add_comm]

/-- **C66** `rand_unit` is unitary, including in dimension one, where it does not call scipy. -/
theorem C66_rand_unit (env : RandEnv) {sz : ℕ} (u : Matrix (Fin sz) (Fin sz) ℂ) (hu : u ∈ Matrix.unitaryGroup (Fin sz) ℂ) :
    randUnit env u ∈ Matrix.unitaryGroup (Fin sz) ℂ := by
  unfold randUnit
  split
  · rename_i h
    subst h
    rw [Matrix.mem_unitaryGroup_iff]
    ext i j
    rw [Subsingleton.elim j i]
    simp only [Matrix.mul_apply, Matrix.star_apply, Matrix.of_apply, Finset.univ_unique, Finset.sum_singleton, Matrix.one_apply_eq]
    rw [Complex.star_def, Complex.mul_conj, Complex.normSq_eq_norm_sq,
      show Complex.I * (env.random 0 : ℂ) * 2 * (Real.pi : ℂ) = ((env.random 0 * 2 * Real.pi : ℝ) : ℂ) * Complex.I by push_cast; ring,
      Complex.norm_exp_ofReal_mul_I]
    simp
  · exact hu

theorem transpose_map_star {n m : Type} (u : Matrix n m ℂ) : u.transpose.map star = u.conjTranspose := rfl

open scoped Classical in
theorem card_getD (dim : ℕ) (l : List ℝ) (h : l.length ≤ dim) :
    (Finset.univ.filter fun i : Fin dim => l.getD i 0 ≠ 0).card = (l.filter (fun x => x ≠ 0)).length := by
  induction dim generalizing l with
  | zero =>
    obtain rfl := List.length_eq_zero_iff.1 (Nat.le_zero.1 h)
    simp
  | succ dim ih =>
    rw [Fin.card_filter_univ_succ]
    cases l with
    | nil => simp
    | cons x l =>
      have := ih l (by simpa using h)
      simp only [Fin.val_zero, Fin.val_succ, List.getD_cons_zero, List.getD_cons_succ, List.filter_cons]
      simp only [this]
      by_cases hx : x = 0 <;> simp [hx]

/-- **C66** `rand_dm`: for at most `dim` drawn eigenvalues, not all zero, the result is a density matrix (positive semidefinite, of trace one), whose
rank is the number of non-zero eigenvalues drawn. -/
theorem C66_rand_dm {dim : ℕ} (evals : List ℝ) (u : Matrix (Fin dim) (Fin dim) ℂ) (hu : u ∈ Matrix.unitaryGroup (Fin dim) ℂ)
    (h0 : ∀ x ∈ evals, 0 ≤ x) (hpos : ∃ x ∈ evals, x ≠ 0) (hlen : evals.length ≤ dim) :
    ∃ ρ, randDm evals u = .ok ρ ∧ ρ.PosSemidef ∧ ρ.trace = 1 ∧ ρ.rank = (evals.filter (fun x => x ≠ 0)).length := by
  classical
  unfold randDm
  rw [if_neg (by omega)]
  refine ⟨_, rfl, ?_⟩
  set p : Fin dim → ℝ := fun i => evals.getD i 0 with hp
  have hp0 : ∀ i, 0 ≤ p i := by
    intro i
    simp only [hp, List.getD_eq_getElem?_getD]
    cases h : evals[(i : ℕ)]? with
    | none => simp
    | some x => exact h0 x (List.mem_of_getElem? h)
  have hs : 0 < ∑ j, p j := by
    obtain ⟨x, hx, hx0⟩ := hpos
    obtain ⟨i, hi, rfl⟩ := List.getElem_of_mem hx
    refine lt_of_lt_of_le (lt_of_le_of_ne (hp0 ⟨i, by omega⟩) ?_) (Finset.single_le_sum (fun j _ => hp0 j) (Finset.mem_univ (⟨i, by omega⟩ : Fin dim)))
    simp only [hp]
    rw [List.getD_eq_getElem?_getD, List.getElem?_eq_getElem hi]; exact hx0.symm
  rw [transpose_map_star]
  have hu1 : u.conjTranspose * u = 1 := Matrix.mem_unitaryGroup_iff'.1 hu
  have hdet : IsUnit u.det := by
    rw [isUnit_iff_ne_zero]
    intro h
    have := congrArg Matrix.det hu1
    rw [Matrix.det_mul, h, mul_zero, Matrix.det_one] at this
    exact zero_ne_one this
  have hdet' : IsUnit u.conjTranspose.det := by
    rw [Matrix.det_conjTranspose]; exact hdet.star
  refine ⟨?_, ?_, ?_⟩
  · refine (Matrix.PosSemidef.diagonal ?_).mul_mul_conjTranspose_same u
    intro i
    simp only [Pi.zero_apply]
    rw [Complex.zero_le_real]
    exact div_nonneg (hp0 i) hs.le
  · rw [Matrix.trace_mul_comm, ← Matrix.mul_assoc, hu1, Matrix.one_mul, Matrix.trace_diagonal, ← Complex.ofReal_sum, ← Finset.sum_div,
      div_self hs.ne', Complex.ofReal_one]
  · rw [Matrix.rank_mul_eq_left_of_isUnit_det _ _ hdet', Matrix.rank_mul_eq_right_of_isUnit_det _ _ hdet, Matrix.rank_diagonal]
    rw [Fintype.card_subtype]
    have e : ∀ i : Fin dim, (((p i / ∑ j, p j : ℝ) : ℂ) ≠ 0) ↔ p i ≠ 0 := by
      intro i
      rw [Ne, Complex.ofReal_eq_zero, div_eq_zero_iff]
      simp [hs.ne']
    simp only [e]
    simp only [hp]
    exact card_getD dim evals hlen

/-- **C66** More eigenvalues than the dimension are refused. -/
theorem C66_rand_dm_refused {dim : ℕ} (evals : List ℝ) (u : Matrix (Fin dim) (Fin dim) ℂ) (h : dim < evals.length) :
    randDm evals u = .error .valueError := if_pos h

/-- **C66** With one eigenvalue, the density matrix is a pure state: the projector on the first column of the unitary. -/
theorem C66_rand_dm_pure {dim : ℕ} (x : ℝ) (hx : x ≠ 0) (u : Matrix (Fin (dim + 1)) (Fin (dim + 1)) ℂ) :
    randDm [x] u = .ok (Matrix.of fun i j => u i 0 * star (u j 0)) := by
  unfold randDm
  rw [if_neg (by simp)]
  refine congrArg Except.ok ?_
  ext i j
  have hs : ∑ j : Fin (dim + 1), [x].getD (j : ℕ) 0 = x := by
    rw [Fin.sum_univ_succ]; simp
  rw [hs, transpose_map_star]
  rw [Matrix.mul_apply]
  simp only [Matrix.mul_diagonal, Matrix.conjTranspose_apply, Matrix.of_apply]
  rw [Fin.sum_univ_succ]
  simp [hx]

/-- The identity is unitary; the maximally mixed state of a qubit is drawn. -/
example : ∃ ρ, randDm [(1 : ℝ) / 3, 1 / 3] (1 : Matrix (Fin 2) (Fin 2) ℂ) = .ok ρ ∧ ρ.PosSemidef ∧ ρ.trace = 1 ∧ ρ.rank = 2 := by
  obtain ⟨ρ, h1, h2, h3, h4⟩ := C66_rand_dm (dim := 2) [(1 : ℝ) / 3, 1 / 3] 1 (one_mem _) (by intro x hx; simp at hx; subst hx; norm_num)
    ⟨1 / 3, by simp, by norm_num⟩ (by simp)
  exact ⟨ρ, h1, h2, h3, by rw [h4]; simp⟩

/-- **C66** `rand_state_vector` is normalised as soon as some component drawn is not zero. -/
theorem C66_rand_state_vector (env : RandEnv) (n : ℕ)
    (h : ∃ i < 2 ^ n, env.random i ≠ 1 / 2 ∨ env.random (2 ^ n + i) ≠ 1 / 2) :
    ∑ i, Complex.normSq (randStateVector env n i) = 1 := by
  set v : Fin (2 ^ n) → ℂ := fun i => ((env.random i - 1 / 2 : ℝ) : ℂ) + Complex.I * ((env.random (2 ^ n + i) - 1 / 2 : ℝ) : ℂ) with hv
  have hs : 0 < ∑ j, Complex.normSq (v j) := by
    obtain ⟨i, hi, h⟩ := h
    refine lt_of_lt_of_le (lt_of_le_of_ne (Complex.normSq_nonneg _) ?_)
      (Finset.single_le_sum (fun j _ => Complex.normSq_nonneg (v j)) (Finset.mem_univ (⟨i, hi⟩ : Fin (2 ^ n))))
    intro h0
    have h0 := Complex.normSq_eq_zero.1 h0.symm
    simp only [hv] at h0
    have hre := congrArg Complex.re h0
    have him := congrArg Complex.im h0
    simp at hre him
    rcases h with h | h
    · exact h (by linarith)
    · exact h (by linarith)
  have e : ∀ i, Complex.normSq (v i / (Real.sqrt (∑ j, Complex.normSq (v j)) : ℂ)) = Complex.normSq (v i) / ∑ j, Complex.normSq (v j) := by
    intro i
    rw [map_div₀, Complex.normSq_ofReal, Real.mul_self_sqrt hs.le]
  calc _ = ∑ i, Complex.normSq (v i / (Real.sqrt (∑ j, Complex.normSq (v j)) : ℂ)) := rfl
    _ = 1 := by
      simp only [e]
      rw [← Finset.sum_div, div_self hs.ne']

example : ∑ i, Complex.normSq (randStateVector exRandEnv 3 i) = 1 :=
  C66_rand_state_vector exRandEnv 3 ⟨5, by norm_num, Or.inl (by norm_num [exRandEnv])⟩

/-! ### Random channels -/

section
variable {dim : ℕ}

/-- Some state is in the kernel of all the matrices. -/
def CommonKernel (pre : List (Matrix (Fin dim) (Fin dim) ℂ)) : Prop := ∃ v : Fin dim → ℂ, v ≠ 0 ∧ ∀ m ∈ pre, m.mulVec v = 0

/-- `Σ m† m`. -/
noncomputable def gram (pre : List (Matrix (Fin dim) (Fin dim) ℂ)) : Matrix (Fin dim) (Fin dim) ℂ :=
  (pre.map fun m => m.transpose.map star * m).sum

theorem gram_posSemidef (pre : List (Matrix (Fin dim) (Fin dim) ℂ)) : (gram pre).PosSemidef := by
  unfold gram
  induction pre with
  | nil => exact Matrix.PosSemidef.zero
  | cons m pre ih =>
    rw [List.map_cons, List.sum_cons]
    exact (Matrix.posSemidef_conjTranspose_mul_self m).add ih

theorem gram_form (pre : List (Matrix (Fin dim) (Fin dim) ℂ)) (v : Fin dim → ℂ) :
    star v ⬝ᵥ (gram pre).mulVec v = ((pre.map fun m => ∑ i, Complex.normSq (m.mulVec v i)).sum : ℝ) := by
  unfold gram
  induction pre with
  | nil => simp
  | cons m pre ih =>
    rw [List.map_cons, List.sum_cons, List.map_cons, List.sum_cons, Matrix.add_mulVec, dotProduct_add, ih, Complex.ofReal_add]
    congr 1
    rw [transpose_map_star, ← Matrix.mulVec_mulVec, Matrix.dotProduct_mulVec, ← Matrix.star_mulVec]
    simp only [dotProduct, Pi.star_apply, Complex.ofReal_sum]
    refine Finset.sum_congr rfl fun i _ => ?_
    rw [Complex.normSq_eq_conj_mul_self]; rfl

theorem gram_det (pre : List (Matrix (Fin dim) (Fin dim) ℂ)) : (gram pre).det = 0 ↔ CommonKernel pre := by
  rw [← Matrix.exists_mulVec_eq_zero_iff]
  constructor
  · rintro ⟨v, hv, h⟩
    refine ⟨v, hv, fun m hm => ?_⟩
    have hf := gram_form pre v
    rw [h, dotProduct_zero] at hf
    have hf : (pre.map fun m => ∑ i, Complex.normSq (m.mulVec v i)).sum = 0 := by exact_mod_cast hf.symm
    have h0 : ∀ x ∈ pre.map fun m => ∑ i, Complex.normSq (m.mulVec v i), 0 ≤ x := by
      intro x hx
      obtain ⟨m, -, rfl⟩ := List.mem_map.1 hx
      exact Finset.sum_nonneg fun i _ => Complex.normSq_nonneg _
    have hm0 := List.single_le_sum h0 _ (List.mem_map_of_mem hm)
    rw [hf] at hm0
    have := (Finset.sum_eq_zero_iff_of_nonneg fun i _ => Complex.normSq_nonneg _).1
      (le_antisymm hm0 (Finset.sum_nonneg fun i _ => Complex.normSq_nonneg _))
    funext i
    exact Complex.normSq_eq_zero.1 (this i (Finset.mem_univ _))
  · rintro ⟨v, hv, h⟩
    refine ⟨v, hv, ?_⟩
    unfold gram
    clear hv
    induction pre with
    | nil => simp
    | cons m pre ih =>
      rw [List.map_cons, List.sum_cons, Matrix.add_mulVec, ih fun m' hm' => h m' (by simp [hm']), add_zero, ← Matrix.mulVec_mulVec,
        h m (by simp), Matrix.mulVec_zero]

theorem sqrt_gram (pre : List (Matrix (Fin dim) (Fin dim) ℂ)) : (CFC.sqrt (gram pre)).conjTranspose = CFC.sqrt (gram pre) ∧
    CFC.sqrt (gram pre) * CFC.sqrt (gram pre) = gram pre :=
  ⟨(Matrix.nonneg_iff_posSemidef.1 (CFC.sqrt_nonneg (gram pre))).isHermitian, CFC.sqrt_mul_sqrt_self _ (gram_posSemidef pre).nonneg⟩

theorem sqrt_gram_det (pre : List (Matrix (Fin dim) (Fin dim) ℂ)) : (CFC.sqrt (gram pre)).det = 0 ↔ CommonKernel pre := by
  rw [← gram_det, ← (sqrt_gram pre).2, Matrix.det_mul, mul_self_eq_zero, (sqrt_gram pre).2]

theorem isPow2_iff (d : ℕ) : (0 < d ∧ d &&& (d - 1) = 0) ↔ d = 2 ^ Nat.log2 d := by
  constructor
  · rintro ⟨h0, h⟩
    obtain ⟨k, rfl⟩ := (Nat.and_sub_one_eq_zero_iff_isPowerOfTwo h0.ne').1 h
    rw [Nat.log2_two_pow]
  · intro h
    have h0 : 0 < d := by rw [h]; positivity
    exact ⟨h0, (Nat.and_sub_one_eq_zero_iff_isPowerOfTwo h0.ne').2 ⟨_, h⟩⟩

/-- The square root of `Σ m† m`, inverted, normalises the matrices. -/
theorem work_normalised (pre : List (Matrix (Fin dim) (Fin dim) ℂ)) (h : ¬ CommonKernel pre) :
    KrausChannel.work (pre.map fun m => (⟨1, m * (CFC.sqrt (gram pre))⁻¹⟩ : KrausData (Fin dim))) = 1 := by
  obtain ⟨h1, h2⟩ := sqrt_gram pre
  have hd : IsUnit (CFC.sqrt (gram pre)).det := isUnit_iff_ne_zero.2 (mt (sqrt_gram_det pre).1 h)
  set s := CFC.sqrt (gram pre)
  have hi : (s⁻¹).conjTranspose = s⁻¹ := by rw [Matrix.conjTranspose_nonsing_inv, h1]
  have : ∀ l : List (Matrix (Fin dim) (Fin dim) ℂ), KrausChannel.work (l.map fun m => (⟨1, m * s⁻¹⟩ : KrausData (Fin dim))) = s⁻¹ * gram l * s⁻¹ := by
    intro l
    unfold KrausChannel.work gram
    induction l with
    | nil => simp
    | cons m l ih =>
      simp only [List.map_cons, List.sum_cons]
      rw [ih, Matrix.mul_add, Matrix.add_mul]
      congr 1
      simp only [KrausData.mat, one_smul, Matrix.conjTranspose_mul, hi, transpose_map_star, Matrix.mul_assoc]
  rw [this, ← h2, ← Matrix.mul_assoc, Matrix.nonsing_inv_mul _ hd, Matrix.one_mul, Matrix.mul_nonsing_inv _ hd]

open scoped Classical in
/-- **C66** `rand_channel_kraus`: the call succeeds exactly when the dimension is a power of two `2^n`, between one and `4^n` matrices are asked for,
and the matrices drawn have no common kernel; otherwise it raises `ValueError`. -/
theorem C66_rand_channel_ok_iff (pre : List (Matrix (Fin dim) (Fin dim) ℂ)) :
    (∃ ch, randChannelKraus pre = .ok ch) ↔ dim = 2 ^ Nat.log2 dim ∧ 1 ≤ pre.length ∧ pre.length ≤ dim ^ 2 ∧ ¬ CommonKernel pre := by
  unfold randChannelKraus
  constructor
  · rintro ⟨ch, h⟩
    split at h
    · cases h
    rename_i h1
    dsimp only at h
    split at h
    · cases h
    rename_i h2
    split at h
    · cases h
    rename_i h3
    have hp := (isPow2_iff dim).1 (not_not.1 h3)
    unfold KrausChannel.make at h
    split at h
    · cases h
    split at h
    · cases h
    rename_i h4
    refine ⟨hp, by omega, ?_, mt (sqrt_gram_det pre).2 h2⟩
    rw [List.length_map, not_lt, show (4 : ℕ) = 2 ^ 2 by norm_num, ← pow_mul, mul_comm, pow_mul, ← hp] at h4
    exact h4
  · rintro ⟨h1, h2, h3, h4⟩
    rw [if_neg (by omega)]
    dsimp only
    have hdet := mt (sqrt_gram_det pre).1 h4
    unfold gram at hdet
    rw [if_neg hdet, if_neg (not_not.2 ((isPow2_iff dim).2 h1))]
    refine ⟨_, make_ok ?_ ?_ (work_normalised pre h4)⟩
    · intro h
      have := congrArg List.length h
      simp at this
      subst this
      simp at h2
    · rw [List.length_map, show (4 : ℕ) = 2 ^ 2 by norm_num, ← pow_mul, mul_comm, pow_mul, ← h1]
      exact h3

/-- **C66** The only exception of `rand_channel_kraus` is `ValueError`. -/
theorem C66_rand_channel_error (pre : List (Matrix (Fin dim) (Fin dim) ℂ)) (e : PyErr) (h : randChannelKraus pre = .error e) : e = .valueError := by
  unfold randChannelKraus at h
  split at h
  · cases h; rfl
  dsimp only at h
  split at h
  · cases h; rfl
  split at h
  · cases h; rfl
  unfold KrausChannel.make at h
  split at h
  · cases h; rfl
  split at h
  · cases h; rfl
  split at h
  · cases h; rfl
  cases h

/-- **C66** The channel returned is trace preserving, has one Kraus operator for each matrix drawn, and the Kraus operators are the matrices drawn
multiplied on the right by a common invertible positive matrix. -/
theorem C66_rand_channel (pre : List (Matrix (Fin dim) (Fin dim) ℂ)) (ch : KrausChannel (Fin dim)) (h : randChannelKraus pre = .ok ch) :
    ch.Complete ∧ (∀ ρ, (ch.act ρ).trace = ρ.trace) ∧
      ∃ s : Matrix (Fin dim) (Fin dim) ℂ, s.PosSemidef ∧ IsUnit s.det ∧ ch.data.map KrausData.mat = pre.map (· * s) := by
  have hk : ¬ CommonKernel pre := ((C66_rand_channel_ok_iff pre).1 ⟨ch, h⟩).2.2.2
  have hd : IsUnit (CFC.sqrt (gram pre)).det := isUnit_iff_ne_zero.2 (mt (sqrt_gram_det pre).1 hk)
  unfold randChannelKraus at h
  split at h
  · cases h
  dsimp only at h
  split at h
  · cases h
  split at h
  · cases h
  obtain ⟨h1, h2⟩ := C43_constructed_complete _ _ _ h
  refine ⟨h1, h2, (CFC.sqrt (gram pre))⁻¹, (Matrix.nonneg_iff_posSemidef.1 (CFC.sqrt_nonneg (gram pre))).inv, ?_, ?_⟩
  · rw [Matrix.det_nonsing_inv]
    exact isUnit_ringInverse.2 hd
  · unfold KrausChannel.make at h
    split at h
    · cases h
    split at h
    · cases h
    split at h
    · cases h
    obtain rfl := Except.ok.inj h
    simp only [List.map_map]
    refine List.map_congr_left fun m _ => ?_
    simp [KrausData.mat, gram]

/-- One invertible matrix is enough. -/
theorem no_commonKernel_of_isUnit {pre : List (Matrix (Fin dim) (Fin dim) ℂ)} {m : Matrix (Fin dim) (Fin dim) ℂ} (hm : m ∈ pre) (hd : IsUnit m.det) :
    ¬ CommonKernel pre := by
  rintro ⟨v, hv, h⟩
  exact hv (by
    have := congrArg (m⁻¹.mulVec) (h m hm)
    rwa [Matrix.mulVec_mulVec, Matrix.nonsing_inv_mul _ hd, Matrix.one_mulVec, Matrix.mulVec_zero] at this)

example : ∃ ch, randChannelKraus [(1 : Matrix (Fin 2) (Fin 2) ℂ), Matrix.of fun _ _ => 3] = .ok ch :=
  (C66_rand_channel_ok_iff _).2 ⟨by decide, by simp, by simp, no_commonKernel_of_isUnit (m := 1) (by simp) (by simp)⟩

end

/-! ### Random Pauli channels -/

theorem pauliTensor_pauliLike {n : ℕ} (w : Fin n → IXYZ) : PauliLike (pauliTensor w) := by
  constructor
  · ext x y
    rw [Matrix.conjTranspose_apply]
    unfold pauliTensor
    simp only [Matrix.of_apply]
    rw [star_prod]
    refine Finset.prod_congr rfl fun i _ => ?_
    have := congrFun (congrFun (pauliLike_ixyz (w i)).1 (x i)) (y i)
    rwa [Matrix.conjTranspose_apply] at this
  · ext x y
    rw [Matrix.mul_apply]
    unfold pauliTensor
    simp only [Matrix.of_apply, ← Finset.prod_mul_distrib]
    have h := Finset.prod_univ_sum (fun _ : Fin n => (Finset.univ : Finset Bool))
      (fun i z => Ops.fromIxyz (w i) (x i) z * Ops.fromIxyz (w i) z (y i))
    rw [Fintype.piFinset_univ] at h
    rw [← h]
    have e : ∀ i, ∑ z, Ops.fromIxyz (w i) (x i) z * Ops.fromIxyz (w i) z (y i) = (1 : Mat2) (x i) (y i) := by
      intro i
      rw [← Matrix.mul_apply, (pauliLike_ixyz (w i)).2]
    simp only [e, Matrix.one_apply]
    rw [Finset.prod_ite_zero]
    simp [funext_iff]

theorem mem_pauliWords {n : ℕ} (w : Fin n → IXYZ) : w ∈ pauliWords n := by
  induction n with
  | zero => simp [pauliWords, Subsingleton.elim w Fin.elim0]
  | succ n ih =>
    unfold pauliWords
    refine List.mem_flatMap.2 ⟨w 0, ?_, List.mem_map.2 ⟨Fin.tail w, ih _, Fin.cons_self_tail w⟩⟩
    rcases w 0 with _ | a
    · simp
    · cases a <;> simp

theorem pauliWords_length (n : ℕ) : (pauliWords n).length = 4 ^ n := by
  induction n with
  | zero => rfl
  | succ n ih =>
    unfold pauliWords
    simp [ih, pow_succ]; ring

theorem pauliWords_nodup (n : ℕ) : (pauliWords n).Nodup := by
  induction n with
  | zero => simp [pauliWords]
  | succ n ih =>
    unfold pauliWords
    rw [List.nodup_flatMap]
    refine ⟨fun P _ => ih.map (Fin.cons_right_injective (α := fun _ => IXYZ) P), ?_⟩
    have : [IXYZ.I, .axis .X, .axis .Y, .axis .Z].Pairwise (· ≠ ·) := by decide
    refine this.imp fun {P Q} hPQ => ?_
    rw [Function.onFun, List.disjoint_left]
    intro w h1 h2
    obtain ⟨w1, -, rfl⟩ := List.mem_map.1 h1
    obtain ⟨w2, -, h⟩ := List.mem_map.1 h2
    have := congrFun h 0
    simp at this
    exact hPQ this.symm

/-- **C66** `build_tensor_pauli_ops` returns the `4^n` operators, each tensor product of Pauli matrices exactly once, ordered with the first factor
most significant. -/
theorem C66_tensor_paulis (n : ℕ) (h : 1 ≤ n) : ∃ words : List (Fin n → IXYZ), words.Nodup ∧ (∀ w, w ∈ words) ∧
    buildTensorPauliOps n = .ok (words.map pauliTensor) ∧ words.length = 4 ^ n := by
  refine ⟨pauliWords n, pauliWords_nodup n, mem_pauliWords, ?_, pauliWords_length n⟩
  unfold buildTensorPauliOps
  rw [if_neg (by omega)]

theorem exists_map_eq {α β : Type} [DecidableEq α] [Inhabited β] (l : List α) (hl : l.Nodup) (r : List β) (h : l.length = r.length) :
    ∃ q : α → β, l.map q = r := by
  refine ⟨fun a => r.getD (l.idxOf a) default, ?_⟩
  apply List.ext_getElem
  · simpa using h
  · intro i h1 h2
    rw [List.getElem_map, hl.idxOf_getElem, List.getD_eq_getElem?_getD, List.getElem?_eq_getElem h2]; rfl

theorem sum_filter_eq {α M : Type} [AddCommMonoid M] (p : α → Bool) (f : α → M) (l : List α) (h : ∀ a ∈ l, p a = false → f a = 0) :
    ((l.filter p).map f).sum = (l.map f).sum := by
  induction l with
  | nil => rfl
  | cons a l ih =>
    have ih := ih fun b hb => h b (by simp [hb])
    cases hp : p a with
    | true => rw [List.filter_cons_of_pos hp, List.map_cons, List.sum_cons, List.map_cons, List.sum_cons, ih]
    | false => rw [List.filter_cons_of_neg (by simp [hp]), ih, List.map_cons, List.sum_cons, h a (by simp) hp, zero_add]

theorem sum_words {M : Type} [AddCommMonoid M] {n : ℕ} (f : (Fin n → IXYZ) → M) : ((pauliWords n).map f).sum = ∑ w, f w := by
  rw [← List.sum_toFinset f (pauliWords_nodup n)]
  refine Finset.sum_congr ?_ fun _ _ => rfl
  ext w; simp [mem_pauliWords]

open scoped Classical in
/-- **C66** `rand_pauli_channel_kraus`, on `n ≥ 1` qubits, for a rank between one and `4^n` and non-zero draws: the channel applies the Pauli operators
with probabilities summing to one, exactly `rank` of which are not zero, and has one Kraus operator for each of them. -/
theorem C66_rand_pauli_channel (env : RandEnv) (henv : env.Ok) (n : ℕ) (hn : 1 ≤ n) (rank : Option ℕ) (hr : ∀ k, rank = some k → 1 ≤ k ∧ k ≤ 4 ^ n)
    (hd : ∀ i < rank.getD (4 ^ n), env.random i ≠ 0) :
    ∃ ch, randPauliChannelKraus env (2 ^ n) rank = .ok ch ∧ ch.Complete ∧ ch.data.length = rank.getD (4 ^ n) ∧
      ∃ q : (Fin (Nat.log2 (2 ^ n)) → IXYZ) → ℝ, (∀ w, 0 ≤ q w) ∧ ∑ w, q w = 1 ∧
        (Finset.univ.filter fun w => q w ≠ 0).card = rank.getD (4 ^ n) ∧
        ∀ ρ, ch.act ρ = ∑ w, (q w : ℂ) • (pauliTensor w * ρ * pauliTensor w) := by
  have h4 : (2 ^ n) ^ 2 = 4 ^ n := by rw [← pow_mul, mul_comm, pow_mul]; norm_num
  have hlog : Nat.log2 (2 ^ n) = n := Nat.log2_two_pow
  set R := rank.getD (4 ^ n) with hR
  have hR1 : 1 ≤ R ∧ R ≤ 4 ^ n := by
    cases rank with
    | none => exact ⟨Nat.one_le_pow _ _ (by norm_num), le_refl _⟩
    | some k => exact hr k rfl
  set draws := (List.range R).map env.random with hdraws
  have hpos : ∀ x ∈ draws, 0 < x := by
    intro x hx
    obtain ⟨i, hi, rfl⟩ := List.mem_map.1 hx
    exact lt_of_le_of_ne (henv.random i).1 (Ne.symm (hd i (List.mem_range.1 hi)))
  have hne : draws ≠ [] := by
    intro h
    have := congrArg List.length h
    simp [hdraws] at this
    omega
  have hS : 0 < draws.sum := List.sum_pos _ hpos hne
  set probs := draws.map (· / draws.sum) with hprobs
  have hp1 : probs.sum = 1 := by
    have : ∀ (l : List ℝ) (c : ℝ), (l.map (· / c)).sum = l.sum / c := by
      intro l c
      induction l with
      | nil => simp
      | cons x l ih => rw [List.map_cons, List.sum_cons, ih, List.sum_cons, add_div]
    rw [hprobs, this, div_self hS.ne']
  have hp0 : ∀ x ∈ probs, 0 < x := by
    intro x hx
    obtain ⟨y, hy, rfl⟩ := List.mem_map.1 hx
    exact div_pos (hpos y hy) hS
  have hpl : probs.length = R := by simp [hprobs, hdraws]
  set full := probs ++ List.replicate (4 ^ n - R) (0 : ℝ) with hfull
  have hperm := henv.shuffle R full
  set P := env.shuffle R full with hP
  have hlen : (pauliWords (Nat.log2 (2 ^ n))).length = P.length := by
    rw [pauliWords_length, hperm.length_eq, hfull, List.length_append, hpl, List.length_replicate, hlog]
    omega
  obtain ⟨q, hq⟩ := exists_map_eq _ (pauliWords_nodup _) P hlen
  have hqmem : ∀ w, q w ∈ full := fun w => hperm.mem_iff.1 (hq ▸ List.mem_map_of_mem (mem_pauliWords w))
  have hq0 : ∀ w, 0 ≤ q w := by
    intro w
    rcases List.mem_append.1 (hqmem w) with h | h
    · exact (hp0 _ h).le
    · rw [(List.mem_replicate.1 h).2]
  have hqs : ∑ w, q w = 1 := by
    rw [← sum_words, hq, hperm.sum_eq, hfull, List.sum_append, hp1, List.sum_replicate]; simp
  have hcount : ((pauliWords (Nat.log2 (2 ^ n))).filter fun w => q w ≠ 0).length = R := by
    have e : ((pauliWords (Nat.log2 (2 ^ n))).filter fun w => q w ≠ 0).length = (P.filter fun x => x ≠ 0).length := by
      rw [← hq, List.filter_map, List.length_map]; rfl
    rw [e, (hperm.filter _).length_eq, hfull, List.filter_append, List.length_append, List.filter_eq_self.2, hpl, List.filter_eq_nil_iff.2]
    · simp
    · intro x hx; simp [(List.mem_replicate.1 hx).2]
    · intro x hx; simpa using (hp0 x hx).ne'
  set W := (pauliWords (Nat.log2 (2 ^ n))).filter fun w => q w ≠ 0 with hW
  have hsel : ((P.zip ((pauliWords (Nat.log2 (2 ^ n))).map pauliTensor)).filter fun p => p.1 ≠ 0) = W.map fun w => (q w, pauliTensor w) := by
    rw [← hq, List.zip_map', List.filter_map]; rfl
  have hkr := fun w => pauli_kraus (csqrt_sq (hq0 w)) (pauliTensor_pauliLike w)
  have hwork : KrausChannel.work (W.map fun w => (⟨csqrt (q w), pauliTensor w⟩ : KrausData _)) = 1 := by
    unfold KrausChannel.work
    rw [List.map_map]
    have e : ((fun k : KrausData (Fin (Nat.log2 (2 ^ n)) → Bool) => k.mat.conjTranspose * k.mat) ∘ fun w => ⟨csqrt (q w), pauliTensor w⟩) =
        fun w => ((q w : ℝ) : ℂ) • (1 : Matrix (Fin (Nat.log2 (2 ^ n)) → Bool) (Fin (Nat.log2 (2 ^ n)) → Bool) ℂ) := funext fun w => (hkr w).1
    rw [e, hW, sum_filter_eq, sum_words, ← Finset.sum_smul, ← Complex.ofReal_sum, hqs]
    · simp
    · intro w _ h
      have : q w = 0 := by simpa using h
      simp [this]
  have hmake := make_ok (n := Nat.log2 (2 ^ n)) (data := W.map fun w => (⟨csqrt (q w), pauliTensor w⟩ : KrausData _))
    (by intro h; have := congrArg List.length h; simp [hcount] at this; omega)
    (by rw [List.length_map, hcount, hlog]; exact hR1.2) hwork
  refine ⟨_, ?_, (C43_constructed_complete _ _ _ hmake).1, by rw [List.length_map, hcount], q, hq0, hqs, ?_, ?_⟩
  · unfold randPauliChannelKraus
    rw [if_neg (not_not.2 ((isPow2_iff _).2 (by rw [hlog])).2), if_neg]
    · dsimp only
      rw [h4, if_neg (by omega)]
      unfold buildTensorPauliOps
      rw [if_neg (by omega)]
      dsimp only
      rw [← hR, ← hdraws, ← hprobs, ← hfull, ← hP, hsel, if_neg (by rw [List.length_map, hcount]; omega),
        List.take_of_length_le (by rw [List.length_map, hcount]), List.map_map]
      exact hmake
    · cases rank with
      | none => simp
      | some k => have := (hr k rfl).1; simp; omega
  · rw [← hcount, hW, ← List.toFinset_card_of_nodup ((pauliWords_nodup _).filter _), List.toFinset_filter]
    congr 1
    ext w
    simp [mem_pauliWords]
  · intro ρ
    unfold KrausChannel.act
    rw [List.map_map]
    have e : ((fun k : KrausData (Fin (Nat.log2 (2 ^ n)) → Bool) => k.mat * ρ * k.mat.conjTranspose) ∘ fun w => ⟨csqrt (q w), pauliTensor w⟩) =
        fun w => ((q w : ℝ) : ℂ) • (pauliTensor w * ρ * pauliTensor w) := funext fun w => (hkr w).2 ρ
    rw [e, hW, sum_filter_eq, sum_words]
    intro w _ h
    have : q w = 0 := by simpa using h
    simp [this]

/-- **C66** `rand_pauli_channel_kraus` refuses a dimension which is not a power of two, dimension one, and a rank which is zero or more than the square
of the dimension. -/
theorem C66_rand_pauli_channel_refused (env : RandEnv) (dim : ℕ) (h1 : 1 ≤ dim) (rank : Option ℕ)
    (h : (∀ k, dim ≠ 2 ^ k) ∨ dim = 1 ∨ rank = some 0 ∨ ∃ k, rank = some k ∧ dim ^ 2 < k) :
    randPauliChannelKraus env dim rank = .error .valueError := by
  unfold randPauliChannelKraus
  split
  · rfl
  rename_i h2
  have hp := (isPow2_iff dim).1 ⟨h1, not_not.1 h2⟩
  split
  · rfl
  rename_i h3
  dsimp only
  split
  · rfl
  rename_i h4
  rcases h with h | rfl | rfl | ⟨k, rfl, h⟩
  · exact absurd hp (h _)
  · have : Nat.log2 1 = 0 := rfl
    unfold buildTensorPauliOps
    rw [if_pos (by rw [this]; norm_num)]
  · simp at h3
  · exact absurd h h4

/-- **C66 (a defect).** When a number drawn is exactly zero (as `random()` may be), but not all of them, `rand_pauli_channel_kraus` raises
`IndexError`: there are fewer operators than the rank. -/
theorem C66_rand_pauli_channel_zero (env : RandEnv) (henv : env.Ok) (n : ℕ) (hn : 1 ≤ n) (rank : Option ℕ)
    (hr : ∀ k, rank = some k → 1 ≤ k ∧ k ≤ 4 ^ n) (i : ℕ) (hi : i < rank.getD (4 ^ n)) (h0 : env.random i = 0)
    (_ : ∃ j < rank.getD (4 ^ n), env.random j ≠ 0) :
    randPauliChannelKraus env (2 ^ n) rank = .error .indexError := by
  classical
  have h4 : (2 ^ n) ^ 2 = 4 ^ n := by rw [← pow_mul, mul_comm, pow_mul]; norm_num
  have hlog : Nat.log2 (2 ^ n) = n := Nat.log2_two_pow
  have hR1 : 1 ≤ rank.getD (4 ^ n) ∧ rank.getD (4 ^ n) ≤ 4 ^ n := by
    cases rank with
    | none => exact ⟨Nat.one_le_pow _ _ (by norm_num), le_refl _⟩
    | some k => exact hr k rfl
  unfold randPauliChannelKraus
  rw [if_neg (not_not.2 ((isPow2_iff _).2 (by rw [hlog])).2), if_neg]
  · dsimp only
    rw [h4, if_neg (by omega)]
    unfold buildTensorPauliOps
    rw [if_neg (by omega)]
    dsimp only
    set R := rank.getD (4 ^ n) with hR
    set c := ((List.range R).map env.random).sum
    set probs := ((List.range R).map env.random).map (· / c) with hprobs
    have hpl : probs.length = R := by simp [hprobs]
    have hperm := henv.shuffle R (probs ++ List.replicate (4 ^ n - R) (0 : ℝ))
    set P := env.shuffle R (probs ++ List.replicate (4 ^ n - R) (0 : ℝ)) with hP
    have hlen : (pauliWords (Nat.log2 (2 ^ n))).length = P.length := by
      rw [pauliWords_length, hperm.length_eq, List.length_append, hpl, List.length_replicate, hlog]
      omega
    obtain ⟨q, hq⟩ := exists_map_eq _ (pauliWords_nodup _) P hlen
    rw [if_pos]
    have e : ((P.zip ((pauliWords (Nat.log2 (2 ^ n))).map pauliTensor)).filter fun p => p.1 ≠ 0).length = (P.filter fun x => x ≠ 0).length := by
      rw [← hq, List.zip_map', List.filter_map, List.length_map, List.filter_map, List.length_map]; rfl
    have hz : (0 : ℝ) ∈ probs := by
      rw [hprobs, List.map_map]
      exact List.mem_map.2 ⟨i, List.mem_range.2 hi, by simp [h0]⟩
    have hlt : (probs.filter fun x => x ≠ 0).length < probs.length := by
      rw [List.length_filter_lt_length_iff_exists]
      exact ⟨0, hz, by simp⟩
    have hnil : (List.replicate (4 ^ n - R) (0 : ℝ)).filter (fun x => decide (x ≠ 0)) = [] := by
      rw [List.filter_eq_nil_iff]
      intro x hx; simp [(List.mem_replicate.1 hx).2]
    rw [e, (hperm.filter _).length_eq, List.filter_append, hnil, List.append_nil]
    omega
  · cases rank with
    | none => simp
    | some k => have := (hr k rfl).1; simp; omega

/-- A channel of full rank on two qubits. -/
example : ∃ ch, randPauliChannelKraus (exRandEnv' 0) (2 ^ 2) none = .ok ch ∧ ch.data.length = 16 := by
  obtain ⟨ch, h1, -, h2, -⟩ := C66_rand_pauli_channel (exRandEnv' 0) (exRandEnv'_ok 0) 2 (by norm_num) none (by simp)
    (by intro i _; norm_num [exRandEnv'])
  exact ⟨ch, h1, h2⟩

/-- A generator that answers zero first. -/
example : ∃ env : RandEnv, env.Ok ∧ randPauliChannelKraus env 2 (some 2) = .error .indexError := by
  refine ⟨⟨fun k => if k = 0 then 0 else 1 / 2, fun _ _ => 0, fun _ _ l => l⟩, ⟨?_, fun _ _ h => h, fun _ _ l => List.Perm.refl l⟩, ?_⟩
  · intro k; dsimp only; split <;> norm_num
  · refine C66_rand_pauli_channel_zero _ ⟨?_, fun _ _ h => h, fun _ _ l => List.Perm.refl l⟩ 1 (le_refl _) (some 2) ?_ 0 (by norm_num) (by simp)
      ⟨1, by norm_num, by norm_num⟩
    · intro k; dsimp only; split <;> norm_num
    · intro k hk; cases hk; norm_num

end Graphix
