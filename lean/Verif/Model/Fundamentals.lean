import Verif.Quantum.State

/-!
# Model of `graphix/fundamentals.py`, `graphix/pauli.py` and the fixed matrices of `graphix/ops.py`

Python `Enum` classes are inductive types; the numeric values of the members are kept where the
code computes with them.
-/

namespace Graphix

/-- `fundamentals.py:70-74` `class Sign` (`PLUS = 1`, `MINUS = -1`). -/
inductive Sign | plus | minus
  deriving DecidableEq, Repr

instance : Fintype Sign := ⟨{.plus, .minus}, by intro x; cases x <;> decide⟩

namespace Sign

/-- `fundamentals.py:83-87` `Sign.plus_if`. -/
def plusIf (b : Bool) : Sign := if b then plus else minus

/-- `fundamentals.py:90-94` `Sign.minus_if`. -/
def minusIf (b : Bool) : Sign := if b then minus else plus

/-- `fundamentals.py:96-98` `Sign.__neg__`: `Sign.minus_if(self == Sign.PLUS)`. -/
def neg (s : Sign) : Sign := minusIf (s == plus)

/-- `fundamentals.py:112-122` `Sign.__mul__` on two signs: `Sign.plus_if(self == other)`. -/
def mul (s t : Sign) : Sign := plusIf (s == t)

/-- `fundamentals.py:139-142` `Sign.__int__`. -/
def toInt : Sign → ℤ
  | plus => 1
  | minus => -1

/-- `fundamentals.py:148-150` `Sign.__complex__`. -/
def toComplex (s : Sign) : ℂ := (s.toInt : ℂ)

/-- `fundamentals.py:118` `Sign.__mul__` with an `int`: `int(self) * other`. -/
def mulInt (s : Sign) (k : ℤ) : ℤ := s.toInt * k

/-- `fundamentals.py:122` `Sign.__mul__` with a `complex`: `complex(self) * other`
(the `float` case l.120 is the same with real arithmetic). -/
noncomputable def mulComplex (s : Sign) (z : ℂ) : ℂ := s.toComplex * z

end Sign

/-- `fundamentals.py:153-166` `class ComplexUnit` (values 0..3). -/
inductive ComplexUnit | one | j | minusOne | minusJ
  deriving DecidableEq, Repr

instance : Fintype ComplexUnit := ⟨{.one, .j, .minusOne, .minusJ}, by intro x; cases x <;> decide⟩

namespace ComplexUnit

/-- Enum value of a unit (`fundamentals.py:163-166`). -/
def value : ComplexUnit → Fin 4
  | one => 0
  | j => 1
  | minusOne => 2
  | minusJ => 3

/-- Enum constructor call `ComplexUnit(value)` (`fundamentals.py:163-166`). -/
def ofValue : Fin 4 → ComplexUnit
  | 0 => one
  | 1 => j
  | 2 => minusOne
  | 3 => minusJ

/-- `fundamentals.py:201-206` `ComplexUnit.from_properties`. -/
def fromProperties (sign : Sign := .plus) (isImag : Bool := false) : ComplexUnit :=
  let osign : Fin 4 := if sign = .plus then 0 else 2
  let oimag : Fin 4 := if isImag then 1 else 0
  ofValue (osign + oimag)

/-- `fundamentals.py:208-211` `ComplexUnit.sign`: `Sign.plus_if(self.value < 2)`. -/
def sign (u : ComplexUnit) : Sign := Sign.plusIf (decide (u.value.val < 2))

/-- `fundamentals.py:213-216` `ComplexUnit.is_imag`: `bool(self.value % 2)`. -/
def isImag (u : ComplexUnit) : Bool := decide (u.value.val % 2 ≠ 0)

/-- `fundamentals.py:218-221` `ComplexUnit.__complex__`: `1j**self.value`. -/
noncomputable def toComplex (u : ComplexUnit) : ℂ := Complex.I ^ u.value.val

/-- `fundamentals.py:230-233` `ComplexUnit.__mul__` on two units:
`ComplexUnit((self.value + other.value) % 4)` (addition in `Fin 4` is addition mod 4). -/
def mul (u v : ComplexUnit) : ComplexUnit := ofValue (u.value + v.value)

/-- `fundamentals.py:245-247` `ComplexUnit.__neg__`: `ComplexUnit((self.value + 2) % 4)`. -/
def neg (u : ComplexUnit) : ComplexUnit := ofValue (u.value + 2)

/-- `cmath.isclose`, as documented by Python for finite values:
`abs(a-b) <= max(rel_tol * max(abs(a), abs(b)), abs_tol)`.  Real arithmetic instead of floats. -/
def IsClose (a b : ℂ) (relTol absTol : ℝ) : Prop :=
  ‖a - b‖ ≤ max (relTol * max ‖a‖ ‖b‖) absTol

open Classical in
/-- `fundamentals.py:168-199` `ComplexUnit.from_or_none` on a complex number: the references are
tried in the order 1, -1, 1j, -1j and the first close one is returned. -/
noncomputable def fromOrNone (z : ℂ) (relTol absTol : ℝ) : Option ComplexUnit :=
  if IsClose z 1 relTol absTol then some one
  else if IsClose z (-1) relTol absTol then some minusOne
  else if IsClose z Complex.I relTol absTol then some j
  else if IsClose z (-Complex.I) relTol absTol then some minusJ
  else none

end ComplexUnit

/-- `fundamentals.py:363-368` `class Axis`. -/
inductive Axis | X | Y | Z
  deriving DecidableEq, Repr

instance : Fintype Axis := ⟨{.X, .Y, .Z}, by intro x; cases x <;> decide⟩

/-- `fundamentals.py:379-389` `IXYZ`: the singleton `I` or an axis. -/
inductive IXYZ | I | axis (a : Axis)
  deriving DecidableEq, Repr

instance : Fintype IXYZ :=
  ⟨{.I, .axis .X, .axis .Y, .axis .Z}, by intro x; cases x <;> first | decide | (rename_i a; cases a <;> decide)⟩

/-- `fundamentals.py:392-398` `class Plane`. -/
inductive Plane | XY | YZ | XZ
  deriving DecidableEq, Repr

instance : Fintype Plane := ⟨{.XY, .YZ, .XZ}, by intro x; cases x <;> decide⟩

namespace Plane

/-- `fundamentals.py:401-411` `Plane.axes`. -/
def axes : Plane → Axis × Axis
  | XY => (.X, .Y)
  | YZ => (.Y, .Z)
  | XZ => (.X, .Z)

/-- `fundamentals.py:414-424` `Plane.orth`. -/
def orth : Plane → Axis
  | XY => .Z
  | YZ => .X
  | XZ => .Y

/-- `fundamentals.py:427-437` `Plane.cos`. -/
def cos : Plane → Axis
  | XY => .X
  | YZ => .Z
  | XZ => .Z

/-- `fundamentals.py:440-450` `Plane.sin`. -/
def sin : Plane → Axis
  | XY => .Y
  | YZ => .Y
  | XZ => .X

/-- `fundamentals.py:476-487` `Plane.from_axes`; `none` models the raised `ValueError`. -/
def fromAxes : Axis → Axis → Option Plane
  | .X, .Y | .Y, .X => some XY
  | .Y, .Z | .Z, .Y => some YZ
  | .X, .Z | .Z, .X => some XZ
  | _, _ => none

end Plane

/-! ### Matrices (`ops.py:28-34`) -/
namespace Ops

/-- `ops.py:28` `Ops.I`. -/
noncomputable def I : Mat2 := mat2 1 0 0 1
/-- `ops.py:29` `Ops.X`. -/
noncomputable def X : Mat2 := mat2 0 1 1 0
/-- `ops.py:30` `Ops.Y`. -/
noncomputable def Y : Mat2 := mat2 0 (-Complex.I) Complex.I 0
/-- `ops.py:31` `Ops.Z`. -/
noncomputable def Z : Mat2 := mat2 1 0 0 (-1)
/-- `ops.py:32` `Ops.S`. -/
noncomputable def S : Mat2 := mat2 1 0 0 Complex.I
/-- `ops.py:33` `Ops.SDG`. -/
noncomputable def SDG : Mat2 := mat2 1 0 0 (-Complex.I)
/-- `ops.py:34` `Ops.H`. -/
noncomputable def H : Mat2 := (1 / (Real.sqrt 2 : ℂ)) • mat2 1 1 1 (-1)

/-- `ops.py:247-258` `Ops.from_axis`. -/
noncomputable def fromAxis : Axis → Mat2
  | .X => X
  | .Y => Y
  | .Z => Z

/-- `ops.py:260-265` `Ops.from_ixyz`. -/
noncomputable def fromIxyz : IXYZ → Mat2
  | .I => I
  | .axis a => fromAxis a

end Ops

/-- `pauli.py:31-44` `class Pauli`. -/
structure Pauli where
  symbol : IXYZ := .I
  unit : ComplexUnit := .one
  deriving DecidableEq, Repr

namespace Pauli

instance : Fintype Pauli :=
  Fintype.ofEquiv (IXYZ × ComplexUnit)
    ⟨fun p => ⟨p.1, p.2⟩, fun p => (p.symbol, p.unit), fun _ => rfl, fun _ => rfl⟩

/-- `pauli.py:46-49` `Pauli.from_axis`. -/
def fromAxis (a : Axis) : Pauli := ⟨.axis a, .one⟩

/-- `pauli.py:51-59` `Pauli.axis`; `none` models the `ValueError` raised on the identity. -/
def axis (p : Pauli) : Option Axis :=
  match p.symbol with
  | .I => none
  | .axis a => some a

/-- `pauli.py:61-65` `Pauli.matrix`. -/
noncomputable def matrix (p : Pauli) : Mat2 := p.unit.toComplex • Ops.fromIxyz p.symbol

/-- `pauli.py:109-133` `Pauli._matmul_impl`. -/
def matmulImpl (lhs rhs : IXYZ) : Pauli :=
  match lhs, rhs with
  | .I, r => ⟨r, .one⟩
  | l, .I => ⟨l, .one⟩
  | .axis .X, .axis .X => ⟨.I, .one⟩
  | .axis .Y, .axis .Y => ⟨.I, .one⟩
  | .axis .Z, .axis .Z => ⟨.I, .one⟩
  | .axis .X, .axis .Y => ⟨.axis .Z, .j⟩
  | .axis .Y, .axis .X => ⟨.axis .Z, .minusJ⟩
  | .axis .Y, .axis .Z => ⟨.axis .X, .j⟩
  | .axis .Z, .axis .Y => ⟨.axis .X, .minusJ⟩
  | .axis .Z, .axis .X => ⟨.axis .Y, .j⟩
  | .axis .X, .axis .Z => ⟨.axis .Y, .minusJ⟩

/-- `pauli.py:141-145` `Pauli.__mul__` with a complex unit (`__rmul__` l.147 is the same). -/
def mulUnit (p : Pauli) (u : ComplexUnit) : Pauli := { p with unit := p.unit.mul u }

/-- `pauli.py:135-139` `Pauli.__matmul__`. -/
def matmul (p q : Pauli) : Pauli := (matmulImpl p.symbol q.symbol).mulUnit (p.unit.mul q.unit)

/-- `pauli.py:151-153` `Pauli.__neg__`. -/
def neg (p : Pauli) : Pauli := { p with unit := p.unit.neg }

end Pauli

end Graphix
