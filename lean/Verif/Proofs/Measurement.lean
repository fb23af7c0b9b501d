import Verif.Model.Measurement
import Verif.Props.Clifford

/-! # Lemmas about measurements, measurement vectors and Clifford gates -/

namespace Graphix

/-- The observable of a measurement in `plane` at `angle`: `cos·P_cos + sin·P_sin`. -/
noncomputable def planeObservable (p : Plane) (angle : ℝ) : Mat2 :=
  (Real.cos (angle * Real.pi) : ℂ) • Ops.fromAxis p.cos
    + (Real.sin (angle * Real.pi) : ℂ) • Ops.fromAxis p.sin

/-- The observable of a measurement: `±P` for a Pauli measurement, `cos·P_cos + sin·P_sin` for a
Bloch measurement. -/
noncomputable def observable : Measurement → Mat2
  | .bloch m => planeObservable m.plane m.angle
  | .pauli m => m.sign.toComplex • Ops.fromAxis m.axis

theorem fromProperties_sign (s : Sign) : (ComplexUnit.fromProperties (sign := s)).sign = s := by
  cases s <;> rfl

theorem measureAxis_eq (c : Clifford) (a : Axis) :
    c.measureAxis a = ⟨.axis (measureEntry c a).1,
      ComplexUnit.fromProperties (sign := (measureEntry c a).2)⟩ := by
  cases a <;> rfl

theorem PauliMeasurement.clifford?_plus (c : Clifford) (a : Axis) :
    (PauliMeasurement.mk a .plus).clifford? c =
      some ⟨(measureEntry c a).1, (measureEntry c a).2⟩ := by
  have h := measureAxis_eq c a
  have e : c.measure (PauliMeasurement.mk a .plus).toPauli =
      ⟨.axis (measureEntry c a).1, ComplexUnit.fromProperties (sign := (measureEntry c a).2)⟩ := by
    simp only [PauliMeasurement.toPauli, Pauli.fromAxis, Pauli.mulUnit, Clifford.measure, h]
    cases (measureEntry c a).2 <;> rfl
  simp only [PauliMeasurement.clifford?, e, Pauli.axis]
  simp [fromProperties_sign]

theorem PauliMeasurement.clifford?_entry (c : Clifford) (m : PauliMeasurement) :
    m.clifford? c = some ⟨(measureEntry c m.axis).1, m.sign.mul (measureEntry c m.axis).2⟩ := by
  obtain ⟨a, s⟩ := m
  have h := measureAxis_eq c a
  have e : c.measure (PauliMeasurement.mk a s).toPauli =
      ⟨.axis (measureEntry c a).1, ComplexUnit.fromProperties (sign := s.mul (measureEntry c a).2)⟩ := by
    simp only [PauliMeasurement.toPauli, Pauli.fromAxis, Pauli.mulUnit, Clifford.measure, h]
    cases s <;> cases (measureEntry c a).2 <;> rfl
  simp only [PauliMeasurement.clifford?, e, Pauli.axis]
  simp [fromProperties_sign]

/-- `PauliMeasurement.clifford` never raises. -/
theorem PauliMeasurement.clifford?_eq (c : Clifford) (m : PauliMeasurement) :
    m.clifford? c = some (m.clifford c) := by
  rw [PauliMeasurement.clifford, clifford?_entry]; rfl

theorem Axis.clifford?_eq (c : Clifford) (a : Axis) : a.clifford? c = some (measureEntry c a).1 := by
  rw [Axis.clifford?, measureAxis_eq]; rfl

/-- The images of two different axes are different. -/
theorem entry_axis_injective : ∀ (c : Fin 24) (a b : Axis),
    (measureEntry (Clifford.ofFin c) a).1 = (measureEntry (Clifford.ofFin c) b).1 → a = b := by
  decide +kernel

/-- `Plane.clifford` never raises, and the new plane is carried by the images of the two axes. -/
theorem Plane.clifford?_eq : ∀ (c : Fin 24) (p : Plane), ∃ q,
    p.clifford? (Clifford.ofFin c) = some q ∧
    (((measureEntry (Clifford.ofFin c) p.cos).1 = q.cos ∧
      (measureEntry (Clifford.ofFin c) p.sin).1 = q.sin) ∨
     ((measureEntry (Clifford.ofFin c) p.cos).1 = q.sin ∧
      (measureEntry (Clifford.ofFin c) p.sin).1 = q.cos)) := by
  decide +kernel

theorem Plane.cos_ne_sin (p : Plane) : p.cos ≠ p.sin := by cases p <;> decide

/-- The heart of C05: the new plane and angle give the conjugated observable. -/
theorem BlochMeasurement.clifford?_spec (m : BlochMeasurement) (c : Clifford) :
    ∃ m', m.clifford? c = some m' ∧
      planeObservable m'.plane m'.angle =
        c.matrix.conjTranspose * planeObservable m.plane m.angle * c.matrix := by
  obtain ⟨q, hq, hax⟩ := Plane.clifford?_eq c m.plane
  change m.plane.clifford? c = some q at hq
  change ((measureEntry c m.plane.cos).1 = q.cos ∧ (measureEntry c m.plane.sin).1 = q.sin) ∨
    ((measureEntry c m.plane.cos).1 = q.sin ∧ (measureEntry c m.plane.sin).1 = q.cos) at hax
  have hconj : c.matrix.conjTranspose * planeObservable m.plane m.angle * c.matrix =
      (Real.cos (m.angle * Real.pi) : ℂ) • ((measureEntry c m.plane.cos).2.toComplex •
        Ops.fromAxis (measureEntry c m.plane.cos).1) +
      (Real.sin (m.angle * Real.pi) : ℂ) • ((measureEntry c m.plane.sin).2.toComplex •
        Ops.fromAxis (measureEntry c m.plane.sin).1) := by
    rw [← measure_entry_matrix, ← measure_entry_matrix]
    simp only [planeObservable, Matrix.mul_add, Matrix.add_mul, Matrix.mul_smul, Matrix.smul_mul]
  rw [hconj]
  simp only [BlochMeasurement.clifford?, hq, PauliMeasurement.clifford?_plus]
  simp only [Option.bind_eq_bind, Option.bind_some, Option.pure_def, Option.some.injEq,
    exists_eq_left', planeObservable]
  -- the final reduction of the angle modulo 2 does not change cos and sin
  have hred : ∀ x : ℝ, Real.cos ((if x ≥ 2 then x - 2 else x) * Real.pi) = Real.cos (x * Real.pi) ∧
      Real.sin ((if x ≥ 2 then x - 2 else x) * Real.pi) = Real.sin (x * Real.pi) := by
    intro x
    split
    · rw [show (x - 2) * Real.pi = x * Real.pi - 2 * Real.pi by ring]
      exact ⟨Real.cos_sub_two_pi _, Real.sin_sub_two_pi _⟩
    · exact ⟨rfl, rfl⟩
  rw [(hred _).1, (hred _).2]
  have A : ∀ x : ℝ, Real.cos ((x + 1) * Real.pi) = -Real.cos (x * Real.pi) ∧
      Real.sin ((x + 1) * Real.pi) = -Real.sin (x * Real.pi) := by
    intro x
    rw [show (x + 1) * Real.pi = x * Real.pi + Real.pi by ring]
    exact ⟨Real.cos_add_pi _, Real.sin_add_pi _⟩
  have B : ∀ x : ℝ, Real.cos ((x + 1 / 2) * Real.pi) = -Real.sin (x * Real.pi) ∧
      Real.sin ((x + 1 / 2) * Real.pi) = Real.cos (x * Real.pi) := by
    intro x
    rw [show (x + 1 / 2) * Real.pi = x * Real.pi + Real.pi / 2 by ring]
    exact ⟨Real.cos_add_pi_div_two _, Real.sin_add_pi_div_two _⟩
  have C : ∀ x : ℝ, Real.cos ((2 - x) * Real.pi) = Real.cos (x * Real.pi) ∧
      Real.sin ((2 - x) * Real.pi) = -Real.sin (x * Real.pi) := by
    intro x
    rw [show (2 - x) * Real.pi = 2 * Real.pi - x * Real.pi by ring]
    exact ⟨Real.cos_two_pi_sub _, Real.sin_two_pi_sub _⟩
  have hne := q.cos_ne_sin
  have aux : ∀ (ex : Bool) (s1 s2 : Sign) (θ : ℝ),
      Real.cos (((if ex = decide (s1 = s2) then 2 - θ else θ) +
        (if ex = true then 1 / 2 + (if s1 = .minus then (0 : ℝ) + 1 else 0)
          else (if s1 = .minus then (0 : ℝ) + 1 else 0))) * Real.pi) =
        (if ex then (s2.toInt : ℝ) * Real.sin (θ * Real.pi) else s1.toInt * Real.cos (θ * Real.pi)) ∧
      Real.sin (((if ex = decide (s1 = s2) then 2 - θ else θ) +
        (if ex = true then 1 / 2 + (if s1 = .minus then (0 : ℝ) + 1 else 0)
          else (if s1 = .minus then (0 : ℝ) + 1 else 0))) * Real.pi) =
        (if ex then (s1.toInt : ℝ) * Real.cos (θ * Real.pi) else s2.toInt * Real.sin (θ * Real.pi)) := by
    intro ex s1 s2 θ
    cases ex <;> cases s1 <;> cases s2 <;>
      simp [Sign.toInt, -one_div, ← add_assoc, (A _).1, (A _).2, (B _).1, (B _).2, (C _).1, (C _).2]
  rcases hax with ⟨h1, h2⟩ | ⟨h1, h2⟩
  · rw [(aux _ _ _ _).1, (aux _ _ _ _).2, h1, h2]
    simp [Sign.toComplex, smul_smul, -Complex.ofReal_cos, -Complex.ofReal_sin, mul_comm]
  · rw [(aux _ _ _ _).1, (aux _ _ _ _).2, h1, h2]
    simp [Sign.toComplex, smul_smul, -Complex.ofReal_cos, -Complex.ofReal_sin, mul_comm, hne.symm,
      add_comm]

/-- `BlochMeasurement.clifford` never raises. -/
theorem BlochMeasurement.clifford?_eq (m : BlochMeasurement) (c : Clifford) :
    m.clifford? c = some (m.clifford c) := by
  obtain ⟨m', h, _⟩ := m.clifford?_spec c
  rw [BlochMeasurement.clifford, h]; rfl

theorem Sign.toComplex_mul (s t : Sign) : (s.mul t).toComplex = s.toComplex * t.toComplex := by
  cases s <;> cases t <;> simp [Sign.mul, Sign.plusIf, Sign.toComplex, Sign.toInt]

theorem observable_clifford (m : Measurement) (c : Clifford) :
    observable (m.clifford c) = c.matrix.conjTranspose * observable m * c.matrix := by
  cases m with
  | bloch m =>
    obtain ⟨m', h, h'⟩ := m.clifford?_spec c
    have e : m.clifford c = m' := by rw [BlochMeasurement.clifford, h]; rfl
    simp only [Measurement.clifford, observable, e, h']
  | pauli m =>
    have e : m.clifford c = ⟨(measureEntry c m.axis).1, m.sign.mul (measureEntry c m.axis).2⟩ := by
      rw [PauliMeasurement.clifford, PauliMeasurement.clifford?_entry]; rfl
    simp only [Measurement.clifford, observable, e, Sign.toComplex_mul, Matrix.mul_smul,
      Matrix.smul_mul, measure_entry_matrix, smul_smul]

/-- The Bloch description of a Pauli measurement has the same observable. -/
theorem observable_toBloch (m : Measurement) : observable (.bloch m.toBloch) = observable m := by
  cases m with
  | bloch m => rfl
  | pauli m =>
    obtain ⟨a, s⟩ := m
    have h1 : ((0.5 : ℝ)) * Real.pi = Real.pi / 2 := by norm_num; ring
    have h2 : ((1.5 : ℝ)) * Real.pi = Real.pi / 2 + Real.pi := by norm_num; ring
    cases a <;> cases s <;>
      simp [observable, planeObservable, Measurement.toBloch, PauliMeasurement.toBloch, Plane.cos,
        Plane.sin, Sign.toComplex, Sign.toInt, -Complex.ofReal_cos, -Complex.ofReal_sin, h1, h2,
        Real.cos_add_pi, Real.sin_add_pi]

theorem outcomeToOperatorMatrix_eq (p : Plane) (θ : ℝ) (s : Bool) :
    outcomeToOperatorMatrix (p.polar θ) s =
      (1 / 2 : ℂ) • ((1 : Mat2) + (if s then (-1 : ℂ) else 1) • planeObservable p θ) := by
  have e1 : (Clifford.ofFin 1).matrix = Ops.X := Clifford.matrix_X
  have e2 : (Clifford.ofFin 2).matrix = Ops.Y := Clifford.matrix_Y
  have e3 : (Clifford.ofFin 3).matrix = Ops.Z := Clifford.matrix_Z
  cases s <;> cases p <;> apply mat2_ext <;>
    simp [outcomeToOperatorMatrix, Plane.polar, planeObservable, Plane.cos, Plane.sin,
      Ops.fromAxis, e1, e2, e3, Ops.X, Ops.Y, Ops.Z, mat2_one,
      -Complex.ofReal_cos, -Complex.ofReal_sin] <;> ring

theorem measureOperator_eq (m : Measurement) (s : Bool) :
    measureOperator m s =
      (1 / 2 : ℂ) • ((1 : Mat2) + (if s then (-1 : ℂ) else 1) • observable m) := by
  rw [measureOperator, outcomeToOperatorMatrix_eq, ← observable_toBloch]
  rfl

/-- The single-qubit vector that outcome `s` of measurement `m` projects on: the planar state of the
measurement's plane at `angle` (outcome 0) or at the opposite point (outcome 1). -/
noncomputable def measVec (m : Measurement) (s : Bool) : Bool → ℂ :=
  planarState m.toBloch.plane (m.toBloch.angle + if s then 1 else 0)

/-- `|v⟩⟨v|` -/
noncomputable def outer (v : Bool → ℂ) : Mat2 := fun i j => v i * star (v j)

theorem outer_planarState (p : Plane) (φ : ℝ) :
    outer (planarState p φ) = (1 / 2 : ℂ) • ((1 : Mat2) + planeObservable p φ) := by
  have hsq : (Real.sqrt 2 : ℂ) * (Real.sqrt 2 : ℂ) = 2 := by
    rw [← Complex.ofReal_mul, Real.mul_self_sqrt (by norm_num)]; norm_num
  have hs0 := CMat.sqrt2_ne
  have hexp : Complex.exp (Complex.I * ((φ * Real.pi : ℝ) : ℂ)) =
      Real.cos (φ * Real.pi) + Real.sin (φ * Real.pi) * Complex.I := by
    rw [mul_comm, Complex.exp_mul_I, ← Complex.ofReal_cos, ← Complex.ofReal_sin]
  have hI := Complex.I_mul_I
  have hcs : (Real.cos (φ * Real.pi) : ℂ) ^ 2 + (Real.sin (φ * Real.pi) : ℂ) ^ 2 = 1 := by
    rw [← Complex.ofReal_pow, ← Complex.ofReal_pow, ← Complex.ofReal_add,
      Real.cos_sq_add_sin_sq]; simp
  have hc2 : (Real.cos (φ * Real.pi) : ℂ) = 2 * (Real.cos (φ * Real.pi / 2) : ℂ) ^ 2 - 1 := by
    have := Real.cos_two_mul (φ * Real.pi / 2)
    rw [show 2 * (φ * Real.pi / 2) = φ * Real.pi by ring] at this
    rw [this]; push_cast; ring
  have hs2 : (Real.sin (φ * Real.pi) : ℂ) =
      2 * (Real.sin (φ * Real.pi / 2) : ℂ) * (Real.cos (φ * Real.pi / 2) : ℂ) := by
    have := Real.sin_two_mul (φ * Real.pi / 2)
    rw [show 2 * (φ * Real.pi / 2) = φ * Real.pi by ring] at this
    rw [this]; push_cast; ring
  have hcs' : (Real.cos (φ * Real.pi / 2) : ℂ) ^ 2 + (Real.sin (φ * Real.pi / 2) : ℂ) ^ 2 = 1 := by
    rw [← Complex.ofReal_pow, ← Complex.ofReal_pow, ← Complex.ofReal_add,
      Real.cos_sq_add_sin_sq]; simp
  have hsq2 : ((Real.sqrt 2 : ℂ))⁻¹ * ((Real.sqrt 2 : ℂ))⁻¹ = 1 / 2 := by
    rw [← mul_inv, hsq]; norm_num
  cases p
  · apply mat2_ext
    · simp [outer, planarState, planeObservable, Plane.cos, Plane.sin, Ops.fromAxis, Ops.X, Ops.Y]
      linear_combination hsq2
    · simp [outer, planarState, planeObservable, Plane.cos, Plane.sin, Ops.fromAxis, Ops.X, Ops.Y,
        hexp, -Complex.ofReal_cos, -Complex.ofReal_sin, -Complex.ofReal_mul]
      linear_combination (((Real.cos (φ * Real.pi) : ℂ) - (Real.sin (φ * Real.pi) : ℂ) * Complex.I)) * hsq2
    · simp [outer, planarState, planeObservable, Plane.cos, Plane.sin, Ops.fromAxis, Ops.X, Ops.Y,
        hexp, -Complex.ofReal_cos, -Complex.ofReal_sin, -Complex.ofReal_mul]
      linear_combination (((Real.cos (φ * Real.pi) : ℂ) + (Real.sin (φ * Real.pi) : ℂ) * Complex.I)) * hsq2
    · simp [outer, planarState, planeObservable, Plane.cos, Plane.sin, Ops.fromAxis, Ops.X, Ops.Y,
        hexp, -Complex.ofReal_cos, -Complex.ofReal_sin, -Complex.ofReal_mul]
      linear_combination (((Real.cos (φ * Real.pi) : ℂ) + (Real.sin (φ * Real.pi) : ℂ) * Complex.I)) *
        (((Real.cos (φ * Real.pi) : ℂ) - (Real.sin (φ * Real.pi) : ℂ) * Complex.I)) * hsq2 +
        (1 / 2) * hcs - (1 / 2) * (Real.sin (φ * Real.pi) : ℂ) ^ 2 * hI
  · apply mat2_ext <;>
      simp [outer, planarState, planeObservable, Plane.cos, Plane.sin, Ops.fromAxis, Ops.Z, Ops.Y,
        hc2, hs2, -Complex.ofReal_cos, -Complex.ofReal_sin, -Complex.ofReal_mul]
    · ring
    · ring
    · ring
    · linear_combination (-(Real.sin (φ * Real.pi / 2) : ℂ) ^ 2) * hI + hcs'
  · apply mat2_ext <;>
      simp [outer, planarState, planeObservable, Plane.cos, Plane.sin, Ops.fromAxis, Ops.Z, Ops.X,
        hc2, hs2, -Complex.ofReal_cos, -Complex.ofReal_sin, -Complex.ofReal_mul]
    · ring
    · ring
    · ring
    · linear_combination hcs'

theorem outer_measVec (m : Measurement) (s : Bool) : outer (measVec m s) = measureOperator m s := by
  rw [measVec, outer_planarState, measureOperator_eq, ← observable_toBloch]
  cases s
  · simp [observable]
  · have h : planeObservable m.toBloch.plane (m.toBloch.angle + 1) =
        (-1 : ℂ) • planeObservable m.toBloch.plane m.toBloch.angle := by
      simp only [planeObservable]
      rw [show (m.toBloch.angle + 1) * Real.pi = m.toBloch.angle * Real.pi + Real.pi by ring,
        Real.cos_add_pi, Real.sin_add_pi]
      simp only [Complex.ofReal_neg, smul_add, smul_smul, neg_mul, one_mul]
    simp only [if_true, observable, h]

/-- A single-qubit vector has norm 1. -/
def UnitVec (v : Bool → ℂ) : Prop := star (v false) * v false + star (v true) * v true = 1

theorem planarState_unit (p : Plane) (φ : ℝ) : UnitVec (planarState p φ) := by
  have h := outer_planarState p φ
  have h1 := congrFun (congrFun h false) false
  have h2 := congrFun (congrFun h true) true
  have ht : planeObservable p φ false false + planeObservable p φ true true = 0 := by
    cases p <;> simp [planeObservable, Plane.cos, Plane.sin, Ops.fromAxis, Ops.X, Ops.Y, Ops.Z]
  unfold UnitVec
  simp only [outer, Matrix.smul_apply, Matrix.add_apply, mat2_one, mat2_ff, mat2_tt,
    smul_eq_mul] at h1 h2
  linear_combination h1 + h2 + (1 / 2) * ht

theorem measVec_unit (m : Measurement) (s : Bool) : UnitVec (measVec m s) := planarState_unit _ _

/-- Unit vectors with the same projector have bras equal up to a phase. -/
theorem bra_phase_of_outer {v w : Bool → ℂ} (hv : UnitVec v) (hw : UnitVec w)
    (h : outer v = outer w) : MatPhaseEq (bra v) (bra w) := by
  have e : ∀ i j, v i * star (v j) = w i * star (w j) := fun i j => congrFun (congrFun h i) j
  set c : ℂ := star (v false) * w false + star (v true) * w true with hc
  have hbra : ∀ j, star (v j) = c * star (w j) := by
    intro j
    have h1 : star (v j) = (star (v false) * v false + star (v true) * v true) * star (v j) := by
      unfold UnitVec at hv; rw [hv, one_mul]
    rw [h1, hc]
    linear_combination (star (v false)) * e false j + (star (v true)) * e true j
  have hn : c * star c = 1 := by
    unfold UnitVec at hv hw
    have e1 := hbra false
    have e2 := hbra true
    have f1 : v false = star c * w false := by
      have := congrArg star e1; simpa [mul_comm] using this
    have f2 : v true = star c * w true := by
      have := congrArg star e2; simpa [mul_comm] using this
    rw [e1, e2, f1, f2] at hv
    linear_combination hv - (c * star c) * hw
  refine ⟨c, ?_, ?_⟩
  · rw [Complex.star_def, Complex.mul_conj, Complex.normSq_eq_norm_sq] at hn
    have hn' : ‖c‖ ^ 2 = 1 := by exact_mod_cast hn
    have := norm_nonneg c
    nlinarith
  · funext i j
    simp [bra, hbra j]

/-- If `U` conjugates the projector of `(m, s)` to that of `(m', s')`, the bras are related by `U`. -/
theorem bra_conj {U : Mat2} (m m' : Measurement) (s s' : Bool)
    (h : U.conjTranspose * measureOperator m s * U = measureOperator m' s') :
    MatPhaseEq (bra (measVec m s) * U) (bra (measVec m' s')) := by
  -- the vector U† v
  set u : Bool → ℂ := fun j => star (star (measVec m s false) * U false j +
    star (measVec m s true) * U true j) with hu
  have hbu : bra (measVec m s) * U = bra u := by
    funext i j; rw [mul2_apply]; simp [bra, hu]
  have hou : outer u = U.conjTranspose * outer (measVec m s) * U := by
    funext i j
    rw [mul2_apply, mul2_apply, mul2_apply]
    simp only [outer, hu, Matrix.conjTranspose_apply, star_add, star_mul', star_star]
    ring
  have hmo : outer u = outer (measVec m' s') := by
    rw [hou, outer_measVec, outer_measVec, h]
  have huu : UnitVec u := by
    have h := hmo
    have h1 := congrFun (congrFun h false) false
    have h2 := congrFun (congrFun h true) true
    have h3 := measVec_unit m' s'
    unfold UnitVec at h3 ⊢
    simp only [outer] at h1 h2
    linear_combination h1 + h2 + h3
  rw [hbu]
  exact bra_phase_of_outer huu (measVec_unit _ _) hmo

/-- The bra of `m` after `c` is, up to phase, the bra of `m.clifford(c)`. -/
theorem bra_clifford (m : Measurement) (c : Clifford) (s : Bool) :
    MatPhaseEq (bra (measVec m s) * c.matrix) (bra (measVec (m.clifford c) s)) := by
  apply bra_conj
  rw [measureOperator_eq, measureOperator_eq, observable_clifford]
  simp only [Matrix.mul_smul, Matrix.smul_mul, Matrix.mul_add, Matrix.add_mul, Matrix.mul_one,
      Clifford.matrix_unitary]

/-- An involution that negates the observable flips the outcome. -/
theorem bra_flip {U : Mat2} (m : Measurement) (s : Bool) (h1 : U.conjTranspose * U = 1)
    (h : U.conjTranspose * observable m * U = (-1 : ℂ) • observable m) :
    MatPhaseEq (bra (measVec m (!s)) * U) (bra (measVec m s)) := by
  apply bra_conj
  rw [measureOperator_eq, measureOperator_eq]
  simp only [Matrix.mul_smul, Matrix.smul_mul, Matrix.mul_add, Matrix.add_mul, Matrix.mul_one, h1, h,
    smul_smul]
  cases s <;> simp

theorem observable_flip_Z (m : Measurement) (h : m.toBloch.plane = .XY) :
    Ops.Z.conjTranspose * observable m * Ops.Z = (-1 : ℂ) • observable m := by
  rw [← observable_toBloch]
  simp only [observable, planeObservable, h, Plane.cos, Plane.sin, Ops.fromAxis, Ops.X, Ops.Y, Ops.Z,
    mat2_conjTranspose, mat2_smul, mat2_add, mat2_mul]
  apply mat2_ext <;> simp

theorem observable_flip_X (m : Measurement) (h : m.toBloch.plane = .YZ) :
    Ops.X.conjTranspose * observable m * Ops.X = (-1 : ℂ) • observable m := by
  rw [← observable_toBloch]
  simp only [observable, planeObservable, h, Plane.cos, Plane.sin, Ops.fromAxis, Ops.X, Ops.Y, Ops.Z,
    mat2_conjTranspose, mat2_smul, mat2_add, mat2_mul]
  apply mat2_ext <;> simp

theorem observable_flip_Y (m : Measurement) (h : m.toBloch.plane = .XZ) :
    Ops.Y.conjTranspose * observable m * Ops.Y = (-1 : ℂ) • observable m := by
  rw [← observable_toBloch]
  simp only [observable, planeObservable, h, Plane.cos, Plane.sin, Ops.fromAxis, Ops.X, Ops.Y, Ops.Z,
    mat2_conjTranspose, mat2_smul, mat2_add, mat2_mul]
  apply mat2_ext <;> simp [mul_comm, ← mul_assoc]

/-- Measuring `m` after applying `c` is, up to phase, measuring `m.clifford(c)`. -/
theorem projOut_clifford (m : Measurement) (c : Clifford) (s : Bool) (n : ℕ) (ψ : QState) :
    PhaseEq (projOut n (measVec m s) (op1 c.matrix n ψ))
      (projOut n (measVec (m.clifford c) s) ψ) := by
  rw [projOut_eq_op1, projOut_eq_op1, op1_mul]
  exact (bra_clifford m c s).op1 n ψ

end Graphix
