import Verif.Proofs.Measurement
import Mathlib.Analysis.SpecialFunctions.Trigonometric.Bounds

/-!
# Properties C05, C06, C42: measurements

`observable m` is the textbook observable: `±P` for a Pauli measurement, `cos(πθ)·P_cos +
sin(πθ)·P_sin` for a measurement of angle `θ` in a plane.  `measureOperator m s` is the operator the
dense backends apply for outcome `s`; `measVec m s` is the planar state that outcome projects on.
-/

namespace Graphix

/-! ## C05 -/

/-- **C05** (observable) `m.clifford(c)` measures `c† M c`. -/
theorem C05_clifford_observable (m : Measurement) (c : Clifford) :
    observable (m.clifford c) = c.matrix.conjTranspose * observable m * c.matrix :=
  observable_clifford m c

/-- **C05** (operators applied by the backend) for both outcomes, the operator of `m.clifford(c)` is
`c† E c` with `E` the operator of `m`. -/
theorem C05_clifford_operator (m : Measurement) (c : Clifford) (s : Bool) :
    measureOperator (m.clifford c) s =
      c.matrix.conjTranspose * measureOperator m s * c.matrix := by
  rw [measureOperator_eq, measureOperator_eq, observable_clifford]
  simp only [Matrix.mul_smul, Matrix.smul_mul, Matrix.mul_add, Matrix.add_mul, Matrix.mul_one,
    Clifford.matrix_unitary]

/-- **C05** (states) on every state, applying `c` to node `n` and then measuring `m` with outcome
`s` leaves the same state, up to a global phase, as measuring `m.clifford(c)` with outcome `s`. -/
theorem C05_clifford_measure (m : Measurement) (c : Clifford) (s : Bool) (n : ℕ) (ψ : QState) :
    PhaseEq (projOut n (measVec (m.clifford c) s) ψ)
      (projOut n (measVec m s) (op1 c.matrix n ψ)) :=
  (projOut_clifford m c s n ψ).symm

/-- **C05** the calls never raise. -/
theorem C05_clifford_total (m : BlochMeasurement) (p : PauliMeasurement) (c : Clifford) :
    m.clifford? c = some (m.clifford c) ∧ p.clifford? c = some (p.clifford c) :=
  ⟨m.clifford?_eq c, PauliMeasurement.clifford?_eq c p⟩

/-- **C05** a Bloch angle in `[0, 2)` stays in `[0, 2)` (promised at `measurements.py:318-319`). -/
theorem C05_angle_range (m : BlochMeasurement) (c : Clifford) (h0 : 0 ≤ m.angle) (h2 : m.angle < 2) :
    0 ≤ (m.clifford c).angle ∧ (m.clifford c).angle < 2 := by
  obtain ⟨q, hq, _⟩ := Plane.clifford?_eq c m.plane
  change m.plane.clifford? c = some q at hq
  have e : m.clifford? c = some (m.clifford c) := m.clifford?_eq c
  simp only [BlochMeasurement.clifford?, hq, PauliMeasurement.clifford?_plus,
    Option.bind_eq_bind, Option.bind_some, Option.pure_def, Option.some.injEq] at e
  rw [← e]
  simp only
  split_ifs <;> constructor <;> linarith

/-- a non-trivial instance of the hypotheses of `C05_angle_range` -/
example : (0 : ℝ) ≤ (⟨1 / 4, .XZ⟩ : BlochMeasurement).angle ∧ (⟨1 / 4, .XZ⟩ : BlochMeasurement).angle < 2 := by
  norm_num

/-! ## C06 -/

/-- **C06** the Bloch description of a measurement has the same observable. -/
theorem C06_to_bloch (m : Measurement) : observable (.bloch m.toBloch) = observable m :=
  observable_toBloch m

theorem coeff_of_planeObservable (p : Plane) (θ : ℝ) (pm : PauliMeasurement)
    (h : planeObservable p θ = observable (.pauli pm)) :
    Real.cos (θ * Real.pi) = 0 ∨ Real.sin (θ * Real.pi) = 0 := by
  by_contra hcon
  push Not at hcon
  obtain ⟨hc, hs⟩ := hcon
  have hc' : (Real.cos (θ * Real.pi) : ℂ) ≠ 0 := by exact_mod_cast hc
  have hs' : (Real.sin (θ * Real.pi) : ℂ) ≠ 0 := by exact_mod_cast hs
  have e1 := congrFun (congrFun h false) false
  have e2 := congrFun (congrFun h false) true
  have e3 := congrFun (congrFun h true) false
  obtain ⟨a, s⟩ := pm
  simp only [planeObservable, observable] at e1 e2 e3
  generalize Real.cos (θ * Real.pi) = c at *
  generalize Real.sin (θ * Real.pi) = d at *
  have k1 : (d : ℂ) * Complex.I ≠ 0 := mul_ne_zero hs' Complex.I_ne_zero
  have hIim : ∀ x y : ℝ, (x : ℂ) - (y : ℂ) * Complex.I = 0 → x = 0 := by
    intro x y hxy
    have := congrArg Complex.re hxy
    simpa using this
  have hzz := CMat.sqrt2_ne
  cases p <;> cases a <;>
    simp [Plane.cos, Plane.sin, Ops.fromAxis, Ops.X, Ops.Y, Ops.Z] at e1 e2 e3
  · have h2 : (d : ℂ) * Complex.I = 0 := by linear_combination (e3 - e2) / 2
    exact k1 h2
  · have h2 : (c : ℂ) = 0 := by linear_combination (e2 + e3) / 2
    exact hc' h2
  · have h2 : (c : ℂ) = 0 := by linear_combination (e2 + e3) / 2
    exact hc' h2
  · exact hc e1
  · exact hc e1
  · exact hs e2
  · exact hc e1
  · exact hc e1
  · exact hs e2

/-- The four quarter turns. -/
theorem cos_sin_quarter (k : ℤ) :
    (k % 4 = 0 ∧ Real.cos ((k : ℝ) / 2 * Real.pi) = 1 ∧ Real.sin ((k : ℝ) / 2 * Real.pi) = 0) ∨
    (k % 4 = 1 ∧ Real.cos ((k : ℝ) / 2 * Real.pi) = 0 ∧ Real.sin ((k : ℝ) / 2 * Real.pi) = 1) ∨
    (k % 4 = 2 ∧ Real.cos ((k : ℝ) / 2 * Real.pi) = -1 ∧ Real.sin ((k : ℝ) / 2 * Real.pi) = 0) ∨
    (k % 4 = 3 ∧ Real.cos ((k : ℝ) / 2 * Real.pi) = 0 ∧ Real.sin ((k : ℝ) / 2 * Real.pi) = -1) := by
  have hk : k = 4 * (k / 4) + k % 4 := (Int.mul_ediv_add_emod k 4).symm
  have hkr : (k : ℝ) = 4 * ((k / 4 : ℤ) : ℝ) + ((k % 4 : ℤ) : ℝ) := by exact_mod_cast hk
  have harg : (k : ℝ) / 2 * Real.pi = ((k % 4 : ℤ) : ℝ) / 2 * Real.pi + ((k / 4 : ℤ) : ℝ) * (2 * Real.pi) := by
    rw [hkr]; push_cast; ring
  rw [harg, Real.cos_add_int_mul_two_pi, Real.sin_add_int_mul_two_pi]
  have h0 : 0 ≤ k % 4 := Int.emod_nonneg k (by norm_num)
  have h4 : k % 4 < 4 := Int.emod_lt_of_pos k (by norm_num)
  have : k % 4 = 0 ∨ k % 4 = 1 ∨ k % 4 = 2 ∨ k % 4 = 3 := by omega
  rcases this with h | h | h | h
  · left; rw [h]; norm_num
  · right; left; rw [h]; norm_num
    rw [show (1 : ℝ) / 2 * Real.pi = Real.pi / 2 by ring]; simp
  · right; right; left; rw [h]; norm_num
  · right; right; right; rw [h]; norm_num
    rw [show (3 : ℝ) / 2 * Real.pi = Real.pi / 2 + Real.pi by ring]
    simp [Real.cos_add_pi, Real.sin_add_pi]

/-- **C06** when `to_pauli_or_none` returns a Pauli measurement, it has the same observable. -/
theorem C06_to_pauli_sound (m : BlochMeasurement) (pm : PauliMeasurement)
    (h : m.toPauliOrNone = some pm) : observable (.pauli pm) = observable (.bloch m) := by
  unfold BlochMeasurement.toPauliOrNone at h
  simp only at h
  rw [ite_not] at h
  by_cases h1 : 2 * m.angle = ((round (2 * m.angle) : ℤ) : ℝ)
  case neg => rw [if_neg h1] at h; simp at h
  rw [if_pos h1] at h
  simp only [Option.some.injEq] at h
  subst h
  have hθ : m.angle * Real.pi = ((round (2 * m.angle) : ℤ) : ℝ) / 2 * Real.pi := by
    rw [← h1]; ring
  simp only [observable, planeObservable, hθ]
  generalize round (2 * m.angle) = k
  rcases cos_sin_quarter k with ⟨h, hc, hs⟩ | ⟨h, hc, hs⟩ | ⟨h, hc, hs⟩ | ⟨h, hc, hs⟩ <;>
    rw [hc, hs, h] <;> simp [Sign.minusIf, Sign.toComplex, Sign.toInt]

/-- **C06** `to_pauli_or_none` answers `None` exactly when the observable is not a signed Pauli. -/
theorem C06_to_pauli_none_iff (m : BlochMeasurement) :
    m.toPauliOrNone = none ↔ ∀ pm : PauliMeasurement, observable (.pauli pm) ≠ observable (.bloch m) := by
  constructor
  · intro h pm hpm
    unfold BlochMeasurement.toPauliOrNone at h
    simp only at h
    split_ifs at h with h1
    apply h1
    have hcs := coeff_of_planeObservable m.plane m.angle pm hpm.symm
    have hint : ∃ k : ℤ, 2 * m.angle = k := by
      rcases hcs with hc | hs
      · obtain ⟨k, hk⟩ := Real.cos_eq_zero_iff.mp hc
        refine ⟨2 * k + 1, ?_⟩
        have hpi := Real.pi_ne_zero
        push_cast
        field_simp at hk
        linarith
      · obtain ⟨k, hk⟩ := Real.sin_eq_zero_iff.mp hs
        refine ⟨2 * k, ?_⟩
        have hpi := Real.pi_ne_zero
        have hk' : (k : ℝ) = m.angle := mul_right_cancel₀ hpi hk
        push_cast
        linarith
    obtain ⟨k, hk⟩ := hint
    rw [hk, round_intCast]
  · intro h
    cases hp : m.toPauliOrNone with
    | none => rfl
    | some pm => exact absurd (C06_to_pauli_sound m pm hp) (h pm)

/-- **C06** `to_pauli_or_bloch` never changes the observable. -/
theorem C06_to_pauli_or_bloch (m : Measurement) : observable m.toPauliOrBloch = observable m := by
  cases m with
  | pauli m => rfl
  | bloch m =>
    cases hp : m.toPauliOrNone with
    | none => simp only [Measurement.toPauliOrBloch, hp]
    | some pm => simp only [Measurement.toPauliOrBloch, hp]; exact C06_to_pauli_sound m pm hp

/-- **C06** round trip: a Pauli measurement seen as a Bloch measurement is recognised as itself. -/
theorem C06_round_trip (pm : PauliMeasurement) : pm.toBloch.toPauliOrNone = some pm := by
  have r1 : round (2 * (0.5 : ℝ)) = 1 := by norm_num
  have r3 : round (2 * (1.5 : ℝ)) = 3 := by
    rw [show (2 * (1.5 : ℝ)) = ((3 : ℤ) : ℝ) by norm_num, round_intCast]
  have r2 : round (2 * (1 : ℝ)) = 2 := by
    rw [show (2 * (1 : ℝ)) = ((2 : ℤ) : ℝ) by norm_num, round_intCast]
  have r0 : round (2 * (0 : ℝ)) = 0 := by simp
  obtain ⟨a, s⟩ := pm
  cases a <;> cases s <;>
    simp [PauliMeasurement.toBloch, BlochMeasurement.toPauliOrNone, r0, r1, r2, r3, Plane.cos,
      Plane.sin, Sign.minusIf, -mul_one, -mul_zero] <;> norm_num

/-! ## C42 -/

theorem observable_sq (m : Measurement) : observable m * observable m = 1 := by
  rw [← observable_toBloch]
  generalize m.toBloch = b
  have hcs : (Real.cos (b.angle * Real.pi) : ℂ) ^ 2 + (Real.sin (b.angle * Real.pi) : ℂ) ^ 2 = 1 := by
    rw [← Complex.ofReal_pow, ← Complex.ofReal_pow, ← Complex.ofReal_add,
      Real.cos_sq_add_sin_sq]; simp
  simp only [observable, planeObservable]
  generalize (Real.cos (b.angle * Real.pi) : ℂ) = c at *
  generalize (Real.sin (b.angle * Real.pi) : ℂ) = d at *
  have hI := Complex.I_mul_I
  cases b.plane <;> simp only [Plane.cos, Plane.sin, Ops.fromAxis, Ops.X, Ops.Y, Ops.Z, mat2_smul,
    mat2_add, mat2_mul, mat2_one] <;> congr 1 <;> first | (ring1; done) | (linear_combination hcs - d ^ 2 * hI; done) | (linear_combination hcs; done)

theorem observable_hermitian (m : Measurement) : (observable m).conjTranspose = observable m := by
  rw [← observable_toBloch]
  generalize m.toBloch = b
  simp only [observable, planeObservable]
  cases b.plane <;> simp [Plane.cos, Plane.sin, Ops.fromAxis, Ops.X, Ops.Y, Ops.Z, mat2_smul,
    mat2_add, mat2_conjTranspose, -Complex.ofReal_cos, -Complex.ofReal_sin]

/-- **C42** the two operators are a projective measurement of the observable: Hermitian,
idempotent, mutually orthogonal, summing to the identity, with the observable as difference. -/
theorem C42_projective (m : Measurement) :
    (∀ s, (measureOperator m s).conjTranspose = measureOperator m s) ∧
    (∀ s, measureOperator m s * measureOperator m s = measureOperator m s) ∧
    (∀ s, measureOperator m s * measureOperator m (!s) = 0) ∧
    measureOperator m false + measureOperator m true = 1 ∧
    measureOperator m false - measureOperator m true = observable m := by
  have hsq := observable_sq m
  have hh := observable_hermitian m
  have e0 : measureOperator m false = (1 / 2 : ℂ) • (1 + observable m) := by
    rw [measureOperator_eq]; simp
  have e1 : measureOperator m true = (1 / 2 : ℂ) • (1 - observable m) := by
    rw [measureOperator_eq]; simp [sub_eq_add_neg]
  refine ⟨?_, ?_, ?_, ?_, ?_⟩
  · intro s
    rw [measureOperator_eq]
    cases s <;> simp [hh, Matrix.conjTranspose_smul, Matrix.conjTranspose_add,
      Matrix.conjTranspose_one]
  · intro s
    cases s
    · rw [e0, Matrix.smul_mul, Matrix.mul_smul, add_mul, mul_add, mul_add, hsq, one_mul, one_mul,
        mul_one, smul_smul]
      rw [show (1 : Mat2) + observable m + (observable m + 1) = (2 : ℂ) • (1 + observable m) by
        rw [two_smul]; abel, smul_smul]; norm_num
    · rw [e1, Matrix.smul_mul, Matrix.mul_smul, sub_mul, mul_sub, mul_sub, hsq, one_mul, one_mul,
        mul_one, smul_smul]
      rw [show (1 : Mat2) - observable m - (observable m - 1) = (2 : ℂ) • (1 - observable m) by
        rw [two_smul]; abel, smul_smul]; norm_num
  · intro s
    cases s
    · change measureOperator m false * measureOperator m true = 0
      rw [e0, e1, Matrix.smul_mul, Matrix.mul_smul, add_mul, mul_sub, mul_sub, hsq, one_mul,
        one_mul, mul_one]; simp
    · change measureOperator m true * measureOperator m false = 0
      rw [e0, e1, Matrix.smul_mul, Matrix.mul_smul, sub_mul, mul_add, mul_add, hsq, one_mul,
        one_mul, mul_one]; simp [add_comm]
  · rw [e0, e1, ← smul_add, show (1 : Mat2) + observable m + (1 - observable m) = (2 : ℂ) • 1 by
      rw [two_smul]; abel, smul_smul]; norm_num
  · rw [e0, e1, ← smul_sub, show (1 : Mat2) + observable m - (1 - observable m) = (2 : ℂ) • observable m by
      rw [two_smul]; abel, smul_smul]; norm_num

/-- **C42** each operator is the rank-one projector on the planar state of that outcome, a unit
vector; so applying it and discarding the qubit is `projOut` on that vector. -/
theorem C42_rank_one (m : Measurement) (s : Bool) :
    measureOperator m s = outer (measVec m s) ∧ UnitVec (measVec m s) :=
  ⟨(outer_measVec m s).symm, measVec_unit m s⟩

end Graphix
