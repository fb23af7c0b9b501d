import Verif.Model.CliffordMatrix
import Verif.Props.Clifford

/-!
# Property C74: the Clifford gate of a matrix
-/

namespace Graphix

open scoped Classical

namespace CMat

/-- An entry of a transcribed matrix. -/
def get (m : CMat) : Bool × Bool → GI
  | (false, false) => m.a
  | (false, true) => m.b
  | (true, false) => m.c
  | (true, true) => m.d

/-- The determinant of two entries of two transcribed matrices. -/
def cross (m n : CMat) (p q : Bool × Bool) : GI := ((m.get p).mul (n.get q)).add ((⟨-1, 0⟩ : GI).mul ((m.get q).mul (n.get p)))

theorem toMat_apply (m : CMat) (p : Bool × Bool) : m.toMat p.1 p.2 = (1 / (Real.sqrt 2 : ℂ)) ^ m.k * (m.get p).toC := by
  rcases p with ⟨_ | _, _ | _⟩ <;> simp [toMat, get]

theorem toMat_cross (m n : CMat) (p q : Bool × Bool) :
    m.toMat p.1 p.2 * n.toMat q.1 q.2 - m.toMat q.1 q.2 * n.toMat p.1 p.2 = (1 / (Real.sqrt 2 : ℂ)) ^ (m.k + n.k) * (m.cross n p q).toC := by
  have h1 : ((⟨-1, 0⟩ : GI)).toC = -1 := by simp [GI.toC]
  simp only [toMat_apply, cross, GI.toC_add, GI.toC_mul, h1, pow_add]
  ring

theorem norm_scaled (k : ℕ) (z : GI) : ‖(1 / (Real.sqrt 2 : ℂ)) ^ k * z.toC‖ ^ 2 = (z.normSq : ℝ) / 2 ^ k := by
  rw [norm_mul, mul_pow, GI.norm_sq, norm_pow, norm_div, norm_one, Complex.norm_real, Real.norm_eq_abs, abs_of_nonneg (Real.sqrt_nonneg 2), ← pow_mul,
    mul_comm k 2, pow_mul, div_pow, one_pow, Real.sq_sqrt (by norm_num), div_pow, one_pow]
  ring

end CMat

theorem entry_check : ∀ (c : Fin 24) (p : Bool × Bool), (Clifford.cmat (Clifford.ofFin c)).get p = ⟨0, 0⟩ ∨
    (2 ^ (Clifford.cmat (Clifford.ofFin c)).k ≤ 2 * ((Clifford.cmat (Clifford.ofFin c)).get p).normSq ∧
      ((Clifford.cmat (Clifford.ofFin c)).get p).normSq ≤ 2 ^ (Clifford.cmat (Clifford.ofFin c)).k) := by
  decide +kernel

theorem entry_exists_check : ∀ c : Fin 24, ∃ p ∈ flatOrder, (Clifford.cmat (Clifford.ofFin c)).get p ≠ ⟨0, 0⟩ := by
  decide +kernel

theorem cross_check : ∀ c d : Fin 24, c ≠ d → ∃ p ∈ flatOrder, ∃ q ∈ flatOrder,
    2 ^ ((Clifford.cmat (Clifford.ofFin c)).k + (Clifford.cmat (Clifford.ofFin d)).k) ≤
      4 * (CMat.cross (Clifford.cmat (Clifford.ofFin c)) (Clifford.cmat (Clifford.ofFin d)) p q).normSq := by
  decide +kernel

/-- A nonzero entry of a gate has a modulus of at least `1/√2` (here, more than 0.7). -/
theorem clifford_entry (c : Clifford) (p : Bool × Bool) :
    c.matrix p.1 p.2 = 0 ∨ (7 / 10 ≤ ‖c.matrix p.1 p.2‖ ∧ ‖c.matrix p.1 p.2‖ ≤ 1) := by
  have e : c.matrix p.1 p.2 = (1 / (Real.sqrt 2 : ℂ)) ^ c.cmat.k * (c.cmat.get p).toC := CMat.toMat_apply _ _
  rcases entry_check c p with h | ⟨h1, h2⟩
  · left
    have h' : c.cmat.get p = ⟨0, 0⟩ := h
    rw [e, h']
    simp [GI.toC]
  · right
    have hn : ‖c.matrix p.1 p.2‖ ^ 2 = ((c.cmat.get p).normSq : ℝ) / 2 ^ c.cmat.k := by rw [e]; exact CMat.norm_scaled _ _
    have hk : (0 : ℝ) < 2 ^ c.cmat.k := by positivity
    have h1' : ((2 : ℝ) ^ c.cmat.k) ≤ 2 * ((c.cmat.get p).normSq : ℝ) := by exact_mod_cast h1
    have h2' : ((c.cmat.get p).normSq : ℝ) ≤ 2 ^ c.cmat.k := by exact_mod_cast h2
    have g1 : 1 / 2 ≤ ‖c.matrix p.1 p.2‖ ^ 2 := by rw [hn, div_le_div_iff₀ (by norm_num) hk]; linarith
    have g2 : ‖c.matrix p.1 p.2‖ ^ 2 ≤ 1 := by rw [hn, div_le_one hk]; exact h2'
    have := norm_nonneg (c.matrix p.1 p.2)
    constructor <;> nlinarith

theorem clifford_entry_le (c : Clifford) (p : Bool × Bool) : ‖c.matrix p.1 p.2‖ ≤ 1 := by
  rcases clifford_entry c p with h | h
  · rw [h]; norm_num
  · exact h.2

theorem clifford_entry_exists (c : Clifford) : ∃ p ∈ flatOrder, c.matrix p.1 p.2 ≠ 0 := by
  obtain ⟨p, hp, h⟩ := entry_exists_check c
  refine ⟨p, hp, fun h0 => ?_⟩
  rcases entry_check c p with h' | ⟨h1, _⟩
  · exact h h'
  · have e : c.matrix p.1 p.2 = (1 / (Real.sqrt 2 : ℂ)) ^ c.cmat.k * (c.cmat.get p).toC := CMat.toMat_apply _ _
    have hn : ‖c.matrix p.1 p.2‖ ^ 2 = ((c.cmat.get p).normSq : ℝ) / 2 ^ c.cmat.k := by rw [e]; exact CMat.norm_scaled _ _
    have hk : (0 : ℝ) < 2 ^ c.cmat.k := by positivity
    have h1' : ((2 : ℝ) ^ c.cmat.k) ≤ 2 * ((c.cmat.get p).normSq : ℝ) := by exact_mod_cast h1
    rw [h0, norm_zero, eq_comm, zero_pow (by norm_num), div_eq_zero_iff] at hn
    rcases hn with hn | hn
    · rw [hn] at h1'
      linarith
    · exact hk.ne' hn

/-- Two different gates are far from proportional. -/
theorem clifford_far {c d : Clifford} (hcd : c ≠ d) (w : ℂ) {ε : ℝ} (hε : ε ≤ 1 / 10)
    (h : ∀ p : Bool × Bool, ‖c.matrix p.1 p.2 - w * d.matrix p.1 p.2‖ ≤ ε) : False := by
  obtain ⟨p, _, q, _, hpq⟩ := cross_check c d hcd
  have e := CMat.toMat_cross c.cmat d.cmat p q
  have hn : ‖c.matrix p.1 p.2 * d.matrix q.1 q.2 - c.matrix q.1 q.2 * d.matrix p.1 p.2‖ ^ 2 =
      ((CMat.cross c.cmat d.cmat p q).normSq : ℝ) / 2 ^ (c.cmat.k + d.cmat.k) := by
    rw [show c.matrix = c.cmat.toMat from rfl, show d.matrix = d.cmat.toMat from rfl, e]
    exact CMat.norm_scaled _ _
  have hk : (0 : ℝ) < 2 ^ (c.cmat.k + d.cmat.k) := by positivity
  have h1' : ((2 : ℝ) ^ (c.cmat.k + d.cmat.k)) ≤ 4 * ((CMat.cross c.cmat d.cmat p q).normSq : ℝ) := by exact_mod_cast hpq
  have g1 : 1 / 4 ≤ ‖c.matrix p.1 p.2 * d.matrix q.1 q.2 - c.matrix q.1 q.2 * d.matrix p.1 p.2‖ ^ 2 := by
    rw [hn, div_le_div_iff₀ (by norm_num) hk]; linarith
  have e2 : c.matrix p.1 p.2 * d.matrix q.1 q.2 - c.matrix q.1 q.2 * d.matrix p.1 p.2 =
      (c.matrix p.1 p.2 - w * d.matrix p.1 p.2) * d.matrix q.1 q.2 - (c.matrix q.1 q.2 - w * d.matrix q.1 q.2) * d.matrix p.1 p.2 := by ring
  have g2 : ‖c.matrix p.1 p.2 * d.matrix q.1 q.2 - c.matrix q.1 q.2 * d.matrix p.1 p.2‖ ≤ 2 / 10 := by
    rw [e2]
    refine (norm_sub_le _ _).trans ?_
    rw [norm_mul, norm_mul]
    have a1 := clifford_entry_le d p
    have a2 := clifford_entry_le d q
    have b1 := h p
    have b2 := h q
    have c1 := norm_nonneg (d.matrix p.1 p.2)
    have c2 := norm_nonneg (d.matrix q.1 q.2)
    have c3 := norm_nonneg (c.matrix p.1 p.2 - w * d.matrix p.1 p.2)
    have c4 := norm_nonneg (c.matrix q.1 q.2 - w * d.matrix q.1 q.2)
    nlinarith
  have := norm_nonneg (c.matrix p.1 p.2 * d.matrix q.1 q.2 - c.matrix q.1 q.2 * d.matrix p.1 p.2)
  nlinarith

theorem isClose_zero (x : ℝ) : mathIsClose x 0 (1 / 10 ^ 9) 0 ≠ .ok true ↔ x ≠ 0 := by
  unfold mathIsClose
  rw [if_neg (by norm_num)]
  by_cases h : x = 0
  · simp [h]
  · rw [if_neg h]
    have hx : 0 < |x| := abs_pos.2 h
    have : ¬ (|x| ≤ |(1 : ℝ) / 10 ^ 9 * x|) := by
      rw [abs_mul, abs_of_pos (by norm_num : (0 : ℝ) < 1 / 10 ^ 9)]
      nlinarith
    simp only [zero_sub, abs_neg, mul_zero, abs_zero]
    have h2 : ¬ |x| ≤ 0 := not_le.2 hx
    simp only [h2, this, or_false, decide_false]
    simp [h]

theorem pivotMatches_iff (mat mi : Mat2) (p : Bool × Bool) : pivotMatches mat mi p ↔
    mat p.1 p.2 ≠ 0 ∧ mi p.1 p.2 ≠ 0 ∧ ∀ q : Bool × Bool, entryClose (mat q.1 q.2 / mat p.1 p.2) (mi q.1 q.2 / mi p.1 p.2) := by
  unfold pivotMatches matAllclose
  rw [isClose_zero, isClose_zero, norm_ne_zero_iff, norm_ne_zero_iff]
  exact ⟨fun h => ⟨h.1, h.2.1, fun q => h.2.2 q.1 q.2⟩, fun h => ⟨h.1, h.2.1, fun i j => h.2.2 (i, j)⟩⟩

/-- A match means that the matrix is nearly a multiple of the gate. -/
theorem pivotMatches_near {mat : Mat2} {c : Clifford} {p : Bool × Bool} (h : pivotMatches mat c.matrix p) :
    ∃ z : ℂ, z ≠ 0 ∧ ∀ q : Bool × Bool, ‖mat q.1 q.2 - z * c.matrix q.1 q.2‖ ≤ 1 / 50000 * ‖z‖ := by
  rw [pivotMatches_iff] at h
  obtain ⟨h1, h2, h3⟩ := h
  refine ⟨mat p.1 p.2 / c.matrix p.1 p.2, div_ne_zero h1 h2, fun q => ?_⟩
  have hp := (clifford_entry c p).resolve_left h2
  have e : mat q.1 q.2 - mat p.1 p.2 / c.matrix p.1 p.2 * c.matrix q.1 q.2 =
      mat p.1 p.2 * (mat q.1 q.2 / mat p.1 p.2 - c.matrix q.1 q.2 / c.matrix p.1 p.2) := by
    field_simp
  rw [e, norm_mul, norm_div]
  have h := h3 q
  unfold entryClose at h
  rw [norm_div (c.matrix q.1 q.2)] at h
  have hq := clifford_entry_le c q
  have hpos : 0 < ‖c.matrix p.1 p.2‖ := norm_pos_iff.2 h2
  have hr : ‖c.matrix q.1 q.2‖ / ‖c.matrix p.1 p.2‖ ≤ 10 / 7 := by
    rw [div_le_div_iff₀ hpos (by norm_num)]
    linarith [hp.1]
  have hm : ‖mat p.1 p.2‖ ≤ ‖mat p.1 p.2‖ / ‖c.matrix p.1 p.2‖ := by
    rw [le_div_iff₀ hpos]
    have := norm_nonneg (mat p.1 p.2)
    nlinarith [hp.2]
  calc ‖mat p.1 p.2‖ * ‖mat q.1 q.2 / mat p.1 p.2 - c.matrix q.1 q.2 / c.matrix p.1 p.2‖
      ≤ ‖mat p.1 p.2‖ * (1 / 50000) := by
        apply mul_le_mul_of_nonneg_left _ (norm_nonneg _)
        nlinarith
    _ ≤ 1 / 50000 * (‖mat p.1 p.2‖ / ‖c.matrix p.1 p.2‖) := by linarith

/-- **C74** (soundness) The gate that `try_from_matrix` returns is the matrix up to a factor (the "global phase", of any modulus), within a relative
tolerance. -/
theorem C74_found (m : Mat2) (c : Clifford)
    (h : tryFromMatrix (r := 2) (c := 2) (fun i j => m (decide (i = 1)) (decide (j = 1))) = some c) :
    ∃ z : ℂ, z ≠ 0 ∧ ∀ i j, ‖m i j - z * c.matrix i j‖ ≤ 1 / 50000 * ‖z‖ := by
  unfold tryFromMatrix at h
  rw [dif_pos ⟨rfl, rfl⟩] at h
  have := List.find?_some h
  rw [List.any_eq_true] at this
  obtain ⟨p, _, hp⟩ := this
  obtain ⟨z, hz, hq⟩ := pivotMatches_near (of_decide_eq_true hp)
  refine ⟨z, hz, fun i j => ?_⟩
  have := hq (i, j)
  cases i <;> cases j <;> simpa using this

/-- **C74** (completeness) `try_from_matrix` recognizes every gate in every matrix that is a multiple of it (by any nonzero factor) up to rounding errors. -/
theorem C74_recognized (m : Mat2) (c : Clifford) (z : ℂ) (hz : z ≠ 0) (hm : ∀ i j, ‖m i j - z * c.matrix i j‖ ≤ 1 / 10 ^ 9 * ‖z‖) :
    tryFromMatrix (r := 2) (c := 2) (fun i j => m (decide (i = 1)) (decide (j = 1))) = some c := by
  have hz0 : 0 < ‖z‖ := norm_pos_iff.2 hz
  unfold tryFromMatrix
  rw [dif_pos ⟨rfl, rfl⟩]
  dsimp only
  have em : (fun i j : Bool => m (decide (Fin.cast (rfl : (2 : ℕ) = 2) (if i then (1 : Fin 2) else 0) = 1))
      (decide (Fin.cast (rfl : (2 : ℕ) = 2) (if j then (1 : Fin 2) else 0) = 1))) = m := by
    funext i j
    cases i <;> cases j <;> simp
  rw [em]
  -- the gate itself matches
  have hself : (flatOrder.any fun p => decide (pivotMatches m c.matrix p)) = true := by
    obtain ⟨p, hp, h0⟩ := clifford_entry_exists c
    rw [List.any_eq_true]
    refine ⟨p, hp, decide_eq_true ?_⟩
    have hc := (clifford_entry c p).resolve_left h0
    have hlow : 6 / 10 * ‖z‖ ≤ ‖m p.1 p.2‖ := by
      have t := norm_sub_norm_le (z * c.matrix p.1 p.2) (m p.1 p.2)
      rw [norm_sub_rev, norm_mul] at t
      have := hm p.1 p.2
      nlinarith [hc.1]
    have hp0 : m p.1 p.2 ≠ 0 := by
      rw [← norm_pos_iff]
      nlinarith
    rw [pivotMatches_iff]
    refine ⟨hp0, h0, fun q => ?_⟩
    unfold entryClose
    have e : m q.1 q.2 / m p.1 p.2 - c.matrix q.1 q.2 / c.matrix p.1 p.2 =
        ((m q.1 q.2 - z * c.matrix q.1 q.2) * c.matrix p.1 p.2 - (m p.1 p.2 - z * c.matrix p.1 p.2) * c.matrix q.1 q.2) /
          (m p.1 p.2 * c.matrix p.1 p.2) := by
      field_simp
      ring
    rw [e, norm_div, norm_mul (m p.1 p.2)]
    have hpos : 0 < ‖m p.1 p.2‖ * ‖c.matrix p.1 p.2‖ := mul_pos (norm_pos_iff.2 hp0) (norm_pos_iff.2 h0)
    have num : ‖(m q.1 q.2 - z * c.matrix q.1 q.2) * c.matrix p.1 p.2 - (m p.1 p.2 - z * c.matrix p.1 p.2) * c.matrix q.1 q.2‖ ≤
        2 / 10 ^ 9 * ‖z‖ := by
      refine (norm_sub_le _ _).trans ?_
      rw [norm_mul, norm_mul]
      have a1 := hm q.1 q.2
      have a2 := hm p.1 p.2
      have a3 := clifford_entry_le c q
      have a4 := norm_nonneg (m q.1 q.2 - z * c.matrix q.1 q.2)
      have a5 := norm_nonneg (m p.1 p.2 - z * c.matrix p.1 p.2)
      have a6 := norm_nonneg (c.matrix q.1 q.2)
      have a7 := norm_nonneg (c.matrix p.1 p.2)
      nlinarith [hc.2]
    have hbig : 4 / 10 * ‖z‖ ≤ ‖m p.1 p.2‖ * ‖c.matrix p.1 p.2‖ := by nlinarith [hc.1]
    have : ‖(m q.1 q.2 - z * c.matrix q.1 q.2) * c.matrix p.1 p.2 - (m p.1 p.2 - z * c.matrix p.1 p.2) * c.matrix q.1 q.2‖ /
        (‖m p.1 p.2‖ * ‖c.matrix p.1 p.2‖) ≤ 1 / 10 ^ 8 := by
      rw [div_le_iff₀ hpos]
      nlinarith
    have := norm_nonneg (c.matrix q.1 q.2 / c.matrix p.1 p.2)
    linarith
  -- no other gate does
  have hother : ∀ d : Clifford, (flatOrder.any fun p => decide (pivotMatches m d.matrix p)) = true → d = c := by
    intro d hd
    by_contra hne
    rw [List.any_eq_true] at hd
    obtain ⟨p, _, hp⟩ := hd
    obtain ⟨z', hz', hq⟩ := pivotMatches_near (of_decide_eq_true hp)
    have hz'0 : 0 < ‖z'‖ := norm_pos_iff.2 hz'
    -- the two factors have about the same modulus
    have hzz : ‖z'‖ ≤ 16 / 10 * ‖z‖ := by
      obtain ⟨q, _, h0⟩ := clifford_entry_exists d
      have hd := (clifford_entry d q).resolve_left h0
      have t1 := norm_sub_norm_le (z' * d.matrix q.1 q.2) (m q.1 q.2)
      rw [norm_sub_rev, norm_mul] at t1
      have t2 := norm_sub_norm_le (m q.1 q.2) (z * c.matrix q.1 q.2)
      rw [norm_mul] at t2
      have := hq q
      have := hm q.1 q.2
      have := clifford_entry_le c q
      nlinarith [hd.1]
    refine clifford_far (c := c) (d := d) (fun h => hne h.symm) (z' / z) (ε := 1 / 10) le_rfl fun q => ?_
    · have e : c.matrix q.1 q.2 - z' / z * d.matrix q.1 q.2 =
          ((m q.1 q.2 - z' * d.matrix q.1 q.2) - (m q.1 q.2 - z * c.matrix q.1 q.2)) / z := by
        field_simp
        ring
      rw [e, norm_div, div_le_iff₀ hz0]
      refine (norm_sub_le _ _).trans ?_
      have := hq q
      have := hm q.1 q.2
      linarith
  have hmem : c ∈ (List.finRange 24).map Clifford.ofFin := List.mem_map.2 ⟨c, List.mem_finRange _, rfl⟩
  cases hf : ((List.finRange 24).map Clifford.ofFin).find? fun ci => flatOrder.any fun p => decide (pivotMatches m ci.matrix p) with
  | none =>
    rw [List.find?_eq_none] at hf
    exact absurd hself (hf c hmem)
  | some d => rw [hother d (List.find?_some (p := fun ci : Clifford => flatOrder.any fun p => decide (pivotMatches m ci.matrix p)) hf)]

/-- **C74** Every gate is the gate of its matrix, times any nonzero factor. -/
theorem C74_roundtrip (c : Clifford) (z : ℂ) (hz : z ≠ 0) :
    tryFromMatrix (r := 2) (c := 2) (fun i j => (z • c.matrix) (decide (i = 1)) (decide (j = 1))) = some c :=
  C74_recognized _ c z hz fun i j => by
    simp only [Matrix.smul_apply, smul_eq_mul, sub_self, norm_zero]
    positivity

/-- **C74** A matrix of another shape is no gate. -/
theorem C74_shape {r c : ℕ} (mat : Matrix (Fin r) (Fin c) ℂ) (h : ¬ (r = 2 ∧ c = 2)) : tryFromMatrix mat = none := dif_neg h

/-- Non-vacuity: the matrix of `H` with a rounding error, times `2i`. -/
example : tryFromMatrix (r := 2) (c := 2) (fun i j => ((2 * Complex.I) • Clifford.H.matrix + (1 / 10 ^ 9 : ℂ) • mat2 0 1 0 0)
    (decide (i = 1)) (decide (j = 1))) = some Clifford.H := by
  refine C74_recognized _ _ (2 * Complex.I) (by simp) fun i j => ?_
  simp only [Matrix.add_apply, Matrix.smul_apply, smul_eq_mul, add_sub_cancel_left]
  cases i <;> cases j <;> norm_num [mat2]

end Graphix
