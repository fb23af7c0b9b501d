import Verif.Model.Pattern
import Verif.Model.Parameter

/-!
# Model of `Pattern.apply`, `map`, `infer_pauli_measurements`, `blochify`, `to_bloch`, and of parametrised
patterns: `graphix/pattern.py:1595-1622, 1694-1836` and `graphix/measurements.py:244-261, 331-338`

Floats are real numbers.
-/

namespace Graphix

open scoped Classical in
/-- CPython `math.isclose(a, b, rel_tol=…, abs_tol=…)` on finite floats: `ValueError` on a negative tolerance. -/
noncomputable def mathIsClose (a b relTol absTol : ℝ) : Except PyErr Bool :=
  if relTol < 0 ∨ absTol < 0 then .error .valueError
  else if a = b then .ok true
  else
    let diff := |b - a|
    .ok (decide (diff ≤ |relTol * b| ∨ diff ≤ |relTol * a| ∨ diff ≤ absTol))

/-- Python's built-in `round(x)`: to the nearest integer, ties to the even one. -/
noncomputable def pyRound (x : ℝ) : ℤ :=
  let f := ⌊x⌋
  if x - f < 1 / 2 then f
  else if 1 / 2 < x - f then f + 1
  else if f % 2 = 0 then f else f + 1

/-- `measurements.py:244-255` `BlochMeasurement.to_pauli_or_none(rel_tol, abs_tol)` for a numeric angle. -/
noncomputable def BlochMeasurement.toPauliOrNoneTol (m : BlochMeasurement) (relTol absTol : ℝ) :
    Except PyErr (Option PauliMeasurement) := do
  let angleDouble : ℝ := 2 * m.angle
  let angleDoubleRound : ℤ := pyRound angleDouble
  let close ← mathIsClose angleDouble angleDoubleRound relTol absTol
  if close = false then return none
  else
    let mod4 : ℤ := angleDoubleRound % 4
    let axis := if mod4 % 2 = 0 then m.plane.cos else m.plane.sin
    let sign := Sign.minusIf (decide (mod4 ≥ 2))
    return some ⟨axis, sign⟩

/-- `measurements.py:257-260`, `453-455` `to_pauli_or_bloch(rel_tol, abs_tol)` (numeric angles). -/
noncomputable def Measurement.toPauliOrBlochTol (relTol absTol : ℝ) : Measurement → Except PyErr Measurement
  | .bloch m => do
    match ← m.toPauliOrNoneTol relTol absTol with
    | none => return .bloch m
    | some pm => return .pauli pm
  | .pauli m => .ok (.pauli m)

/-- `command.py:164-177` `M.map`, on the commands of the sequence (`pattern.py:1723`); `f` may raise. -/
def Command.mapMeas (f : Measurement → Except PyErr Measurement) : Command → Except PyErr Command
  | .M n m s t => do
    let m' ← f m
    return .M n m' s t
  | c => .ok c

namespace Pattern

/-- `pattern.py:1695-1730` `Pattern.apply(f, copy=…)`: the pattern it returns (in place, the same object; only the
sequence of commands is replaced). -/
def apply (p : Pattern) (f : Measurement → Except PyErr Measurement) (copy : Bool) : Except PyErr Pattern := do
  let newSeq ← p.seq.mapM (Command.mapMeas f)
  if copy then
    let newPattern ← Pattern.new p.inputs newSeq none
    newPattern.reorderOutputNodes p.outputs
  else return { p with seq := newSeq }

/-- `pattern.py:1732-1757` `Pattern.map`. -/
def map (p : Pattern) (f : Measurement → Except PyErr Measurement) : Except PyErr Pattern := p.apply f true

/-- `pattern.py:1759-1790` `Pattern.infer_pauli_measurements`. -/
noncomputable def inferPauliMeasurements (p : Pattern) (relTol absTol : ℝ) (copy : Bool) : Except PyErr Pattern :=
  p.apply (Measurement.toPauliOrBlochTol relTol absTol) copy

/-- `pattern.py:1792-1818` `Pattern.blochify`. -/
noncomputable def blochify (p : Pattern) (copy : Bool) : Except PyErr Pattern :=
  p.apply (fun m => .ok (.bloch m.toBloch)) copy

/-- `pattern.py:1820-1835` `Pattern.to_bloch`. -/
noncomputable def toBloch (p : Pattern) : Except PyErr Pattern := p.blochify true

end Pattern

/-! ## Parametrised patterns -/

/-- `measurements.py:51-89, 207-220, 348-353`: a measurement whose angle may be an affine expression. -/
inductive PMeasurement
  | bloch (angle : Expr) (plane : Plane)
  | pauli (m : PauliMeasurement)

namespace PMeasurement

/-- `measurements.py:331-333`, `471-473` `with_parameter`. -/
noncomputable def withParameter (x : ℕ) (e : Expr) : PMeasurement → Except PyErr PMeasurement
  | bloch angle plane => do
    let a ← angle.subs x e
    return bloch a plane
  | pauli m => .ok (pauli m)

/-- `measurements.py:335-337`, `475-477` `with_parameters`. -/
noncomputable def withParameters (assignment : ℕ → Option Expr) : PMeasurement → Except PyErr PMeasurement
  | bloch angle plane => do
    let a ← angle.xreplace assignment
    return bloch a plane
  | pauli m => .ok (pauli m)

/-- `measurements.py:244-261`, `453-455` `to_pauli_or_bloch`: `None` for an angle that is an expression. -/
noncomputable def toPauliOrBlochTol (relTol absTol : ℝ) : PMeasurement → Except PyErr PMeasurement
  | bloch (.aff a x b) plane => .ok (bloch (.aff a x b) plane)
  | bloch (.num r) plane => do
    match ← BlochMeasurement.toPauliOrNoneTol ⟨r, plane⟩ relTol absTol with
    | none => return bloch (.num r) plane
    | some pm => return pauli pm
  | pauli m => .ok (pauli m)

/-- `measurements.py:312-329`, `467-469` `clifford`, with an angle that may be an expression: the arithmetic is
that of `parameter.py`, and an angle that is an expression is not reduced (327). -/
noncomputable def clifford? (m : PMeasurement) (c : Clifford) : Except PyErr PMeasurement :=
  match m with
  | pauli m => match m.clifford? c with
    | some m' => .ok (pauli m')
    | none => .error .valueError
  | bloch angle plane => do
    let newPlane ← (plane.clifford? c).elim (.error .valueError) .ok
    let cosPauli ← ((PauliMeasurement.mk plane.cos .plus).clifford? c).elim (.error .valueError) .ok
    let sinPauli ← ((PauliMeasurement.mk plane.sin .plus).clifford? c).elim (.error .valueError) .ok
    let exchange : Bool := decide (cosPauli.axis ≠ newPlane.cos)
    let angle ← if exchange = decide (cosPauli.sign = sinPauli.sign) then Expr.sub (.num 2) angle else .ok angle
    let addTerm : ℝ := 0
    let addTerm : ℝ := if cosPauli.sign = .minus then addTerm + 1 else addTerm
    let addTerm : ℝ := if exchange then 1 / 2 + addTerm else addTerm
    let angle ← Expr.add angle (.num addTerm)
    let angle : Expr := match angle with
      | .num r => if r ≥ 2 then .num (r - 2) else .num r
      | e => e
    return bloch angle newPlane

end PMeasurement

/-- `command.py:74-301`: the commands of a parametrised pattern: only measurements carry parameters. -/
inductive PCommand
  | M (node : ℕ) (measurement : PMeasurement) (sDomain tDomain : Finset ℕ)
  | N (node : ℕ) (state : PlanarState)
  | E (u v : ℕ)
  | C (node : ℕ) (clifford : Clifford)
  | X (node : ℕ) (domain : Finset ℕ)
  | Z (node : ℕ) (domain : Finset ℕ)
  | S (node : ℕ) (domain : Finset ℕ)
  | T

/-- `command.py:164-177` `M.map`, on the commands of the sequence (`pattern.py:1723`). -/
def PCommand.mapMeas (f : PMeasurement → Except PyErr PMeasurement) : PCommand → Except PyErr PCommand
  | .M n m s t => do
    let m' ← f m
    return .M n m' s t
  | c => .ok c

/-- `pattern.py:67-120` a pattern with parameters. -/
structure PPattern where
  inputs : List ℕ
  nNode : ℕ
  seq : List PCommand
  outputs : List ℕ

namespace PPattern

/-- `pattern.py:88-114` `Pattern(input_nodes=inputs)`. -/
def empty (inputs : List ℕ) : PPattern := ⟨inputs, inputs.length, [], inputs⟩

/-- `pattern.py:122-139` `Pattern.add`: as for patterns without parameters (`Pattern.add`). -/
def add (p : PPattern) (cmd : PCommand) : PPattern :=
  match cmd with
  | .N n _ => { p with nNode := p.nNode + 1, outputs := p.outputs ++ [n], seq := p.seq ++ [cmd] }
  | .M n _ _ _ => { p with outputs := p.outputs.erase n, seq := p.seq ++ [cmd] }
  | _ => { p with seq := p.seq ++ [cmd] }

/-- `pattern.py:415-425` `reorder_output_nodes`. -/
def reorderOutputNodes (p : PPattern) (outputs : List ℕ) : Except PyErr PPattern := do
  assertPermutation p.outputs outputs
  return { p with outputs := outputs }

/-- `pattern.py:1695-1730` `Pattern.apply(f, copy=…)`. -/
def apply (p : PPattern) (f : PMeasurement → Except PyErr PMeasurement) (copy : Bool) : Except PyErr PPattern := do
  let newSeq ← p.seq.mapM (PCommand.mapMeas f)
  if copy then (newSeq.foldl add (empty p.inputs)).reorderOutputNodes p.outputs
  else return { p with seq := newSeq }

/-- `pattern.py:1596-1610` `Pattern.is_parameterized`. -/
def isParameterized (p : PPattern) : Bool :=
  p.seq.any fun c => match c with
    | .M _ (.bloch (.aff _ _ _) _) _ _ => true
    | _ => false

/-- `pattern.py:1612-1616` `Pattern.replace_parameter`. -/
noncomputable def replaceParameter (p : PPattern) (x : ℕ) (e : Expr) (copy : Bool) : Except PyErr PPattern :=
  p.apply (PMeasurement.withParameter x e) copy

/-- `pattern.py:1618-1622` `Pattern.replace_parameters`. -/
noncomputable def replaceParameters (p : PPattern) (assignment : ℕ → Option Expr) (copy : Bool) :
    Except PyErr PPattern :=
  p.apply (PMeasurement.withParameters assignment) copy

/-- `pattern.py:1759-1790` `Pattern.infer_pauli_measurements`. -/
noncomputable def inferPauliMeasurements (p : PPattern) (relTol absTol : ℝ) (copy : Bool) : Except PyErr PPattern :=
  p.apply (PMeasurement.toPauliOrBlochTol relTol absTol) copy

end PPattern
end Graphix
