import Verif.Model.Clifford
import Mathlib.Analysis.SpecialFunctions.Trigonometric.Basic
import Mathlib.Analysis.SpecialFunctions.Complex.Circle
import Mathlib.Algebra.Order.Round

/-!
# Model of `graphix/measurements.py`, `states.py` and the measurement operators of the backends

Angles are exact real numbers in units of π (the code uses `float` or symbolic expressions); this is
the simplification recorded in DESIGN.md ("exact arithmetic").
-/

namespace Graphix

/-- `measurements.py:207-220` `class BlochMeasurement`. -/
structure BlochMeasurement where
  angle : ℝ
  plane : Plane

/-- `measurements.py:348-353` `class PauliMeasurement`. -/
structure PauliMeasurement where
  axis : Axis
  sign : Sign := .plus
  deriving DecidableEq

/-- `measurements.py:51-89` `class Measurement`: a Bloch or a Pauli measurement. -/
inductive Measurement
  | bloch (m : BlochMeasurement)
  | pauli (m : PauliMeasurement)

/-- `fundamentals.py:374-376` `Axis.clifford`; `none` models the `ValueError` of `Pauli.axis`. -/
def Axis.clifford? (a : Axis) (c : Clifford) : Option Axis := (c.measureAxis a).axis

/-- `fundamentals.py:508-510` `Plane.clifford`; `none` models the `ValueError` of `from_axes`. -/
def Plane.clifford? (p : Plane) (c : Clifford) : Option Plane := do
  let a ← p.axes.1.clifford? c
  let b ← p.axes.2.clifford? c
  Plane.fromAxes a b

namespace PauliMeasurement

/-- `measurements.py:397-407` `PauliMeasurement.__neg__`. -/
def neg (m : PauliMeasurement) : PauliMeasurement := ⟨m.axis, m.sign.neg⟩

/-- `measurements.py:409-424` `PauliMeasurement.to_pauli`: `self.sign * Pauli.from_axis(self.axis)`.
`Sign.__mul__` returns `NotImplemented` on a `Pauli`, so Python calls `Pauli.__rmul__(sign)`, which
converts the sign with `ComplexUnit.from_or_none` (exact here: `complex(sign)` is `±1`). -/
def toPauli (m : PauliMeasurement) : Pauli :=
  (Pauli.fromAxis m.axis).mulUnit (match m.sign with | .plus => .one | .minus => .minusOne)

/-- `measurements.py:427-440` `PauliMeasurement.to_bloch`. -/
noncomputable def toBloch (m : PauliMeasurement) : BlochMeasurement :=
  match m.axis, m.sign with
  | .X, .plus => ⟨0, .XY⟩
  | .X, .minus => ⟨1, .XY⟩
  | .Y, .plus => ⟨0.5, .XY⟩
  | .Y, .minus => ⟨1.5, .XY⟩
  | .Z, .plus => ⟨0, .YZ⟩
  | .Z, .minus => ⟨1, .YZ⟩

/-- `measurements.py:467-469` `PauliMeasurement.clifford`; `none` models the `ValueError` of
`Pauli.axis`. -/
def clifford? (m : PauliMeasurement) (c : Clifford) : Option PauliMeasurement := do
  let pauli := c.measure m.toPauli
  let a ← pauli.axis
  return ⟨a, pauli.unit.sign⟩

/-- `clifford?` as a total function; it never raises (`PauliMeasurement.clifford?_eq`). -/
def clifford (m : PauliMeasurement) (c : Clifford) : PauliMeasurement := (m.clifford? c).getD m

end PauliMeasurement

namespace BlochMeasurement

/-- `measurements.py:313-330` `BlochMeasurement.clifford`. -/
noncomputable def clifford? (m : BlochMeasurement) (c : Clifford) : Option BlochMeasurement := do
  let newPlane ← m.plane.clifford? c
  let cosPauli ← (PauliMeasurement.mk m.plane.cos .plus).clifford? c
  let sinPauli ← (PauliMeasurement.mk m.plane.sin .plus).clifford? c
  let exchange : Bool := decide (cosPauli.axis ≠ newPlane.cos)
  let angle : ℝ := if exchange = decide (cosPauli.sign = sinPauli.sign) then 2 - m.angle else m.angle
  let addTerm : ℝ := 0
  let addTerm : ℝ := if cosPauli.sign = .minus then addTerm + 1 else addTerm
  let addTerm : ℝ := if exchange then 1 / 2 + addTerm else addTerm
  let angle : ℝ := angle + addTerm
  let angle : ℝ := if angle ≥ 2 then angle - 2 else angle
  return ⟨angle, newPlane⟩

/-- `clifford?` as a total function; it never raises (`BlochMeasurement.clifford?_eq`). -/
noncomputable def clifford (m : BlochMeasurement) (c : Clifford) : BlochMeasurement :=
  (m.clifford? c).getD m

/-- `measurements.py:245-256` `BlochMeasurement.to_pauli_or_none` for a numeric angle, with exact
arithmetic: `math.isclose(angle_double, round(angle_double))` is equality (tolerance 0).
Python's `round` differs from Mathlib's `round` on half-integers only, where both fail the test. -/
noncomputable def toPauliOrNone (m : BlochMeasurement) : Option PauliMeasurement :=
  let angleDouble : ℝ := 2 * m.angle
  let angleDoubleRound : ℤ := round angleDouble
  if angleDouble ≠ (angleDoubleRound : ℝ) then none
  else
    let mod4 : ℤ := angleDoubleRound % 4
    let axis := if mod4 % 2 = 0 then m.plane.cos else m.plane.sin
    let sign := Sign.minusIf (decide (mod4 ≥ 2))
    some ⟨axis, sign⟩

end BlochMeasurement

namespace Measurement

/-- `measurements.py:235-238` and `427-440` `Measurement.to_bloch`. -/
noncomputable def toBloch : Measurement → BlochMeasurement
  | bloch m => m
  | pauli m => m.toBloch

/-- `measurements.py:313-330`, `467-469` `Measurement.clifford`. -/
noncomputable def clifford (m : Measurement) (c : Clifford) : Measurement :=
  match m with
  | bloch m => .bloch (m.clifford c)
  | pauli m => .pauli (m.clifford c)

/-- `measurements.py:245-256` and `448-450` `Measurement.to_pauli_or_none`. -/
noncomputable def toPauliOrNone : Measurement → Option PauliMeasurement
  | bloch m => m.toPauliOrNone
  | pauli m => some m

/-- `measurements.py:258-261` and `453-455` `Measurement.to_pauli_or_bloch`. -/
noncomputable def toPauliOrBloch : Measurement → Measurement
  | bloch m => match m.toPauliOrNone with
    | none => .bloch m
    | some pm => .pauli pm
  | pauli m => .pauli m

end Measurement

/-- `fundamentals.py:458-473` `Plane.polar` (angle in units of π). -/
noncomputable def Plane.polar (p : Plane) (angle : ℝ) : ℝ × ℝ × ℝ :=
  let c := Real.cos (angle * Real.pi)
  let s := Real.sin (angle * Real.pi)
  match p.cos, p.sin with
  | .X, .Y => (c, s, 0)
  | .Z, .Y => (0, s, c)
  | .Z, .X => (s, 0, c)
  | _, _ => (0, 0, 0)  -- `RuntimeError("Unreachable.")`; `cos`/`sin` only give the three cases above

/-- `sim/base_backend.py:506-541` `_outcome_to_operator_matrix` (the symbolic and numeric branches
compute the same expression; `Clifford(1..3).matrix` are X, Y, Z). -/
noncomputable def outcomeToOperatorMatrix (vec : ℝ × ℝ × ℝ) (outcome : Bool) : Mat2 :=
  let sign : ℂ := if outcome then -1 else 1
  (1 / 2 : ℂ) • (1 : Mat2) + (sign * vec.1 / 2) • (Clifford.ofFin 1).matrix
    + (sign * vec.2.1 / 2) • (Clifford.ofFin 2).matrix
    + (sign * vec.2.2 / 2) • (Clifford.ofFin 3).matrix

/-- The operator that `DenseStateBackend.measure` (`sim/base_backend.py:832-853`) applies for
measurement `m` and outcome `outcome`. -/
noncomputable def measureOperator (m : Measurement) (outcome : Bool) : Mat2 :=
  let bloch := m.toBloch
  outcomeToOperatorMatrix (bloch.plane.polar bloch.angle) outcome

/-- `states.py:67-79` `PlanarState.to_statevector_numpy`. -/
noncomputable def planarState (p : Plane) (angle : ℝ) : Bool → ℂ :=
  let angleRad : ℝ := angle * Real.pi
  match p with
  | .XY => fun b => if b then Complex.exp (Complex.I * angleRad) / Real.sqrt 2 else 1 / Real.sqrt 2
  | .YZ => fun b => if b then Complex.I * Real.sin (angleRad / 2) else Real.cos (angleRad / 2)
  | .XZ => fun b => if b then Real.sin (angleRad / 2) else Real.cos (angleRad / 2)

end Graphix
