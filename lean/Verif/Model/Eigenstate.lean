import Verif.Model.Command
import Verif.Model.Pattern

/-!
# Model of the eigenstates, the iteration and the printing of `graphix/pauli.py`
-/

namespace Graphix

/-- `states.py:83-94` `class BasicStates`. -/
inductive BasicStates | ZERO | ONE | PLUS | MINUS | PLUS_I | MINUS_I
  deriving DecidableEq

/-- `states.py:86-91` the planar states of `BasicStates`. The angles are in units of `π`, so `ANGLE_PI` is 1
(`fundamentals.py`). -/
noncomputable def BasicStates.state : BasicStates → PlanarState
  | .ZERO => ⟨.XZ, 0⟩
  | .ONE => ⟨.XZ, 1⟩
  | .PLUS => ⟨.XY, 0⟩
  | .MINUS => ⟨.XY, 1⟩
  | .PLUS_I => ⟨.XY, 1 / 2⟩
  | .MINUS_I => ⟨.XY, -1 / 2⟩

/-- `states.py:94` `BasicStates.VEC`. -/
def BasicStates.VEC : List BasicStates := [.PLUS, .MINUS, .ZERO, .ONE, .PLUS_I, .MINUS_I]

/-- `states.py:31-36` `State.to_densitymatrix_numpy`: `np.outer(psi, psi.conj())`. -/
noncomputable def PlanarState.densityMatrix (s : PlanarState) : Mat2 := fun i j => s.vec i * star (s.vec j)

namespace Pauli

/-- `pauli.py:67-82` `Pauli.eigenstate`. The argument is a Python integer. -/
noncomputable def eigenstate (p : Pauli) (binary : ℤ) : Except PyErr PlanarState := do
  if ¬(binary = 0 ∨ binary = 1) then throw .valueError
  match p.symbol with
  | .axis .X => pure (if binary = 0 then BasicStates.PLUS else BasicStates.MINUS).state
  | .axis .Y => pure (if binary = 0 then BasicStates.PLUS_I else BasicStates.MINUS_I).state
  | .axis .Z => pure (if binary = 0 then BasicStates.ZERO else BasicStates.ONE).state
  | .I => pure BasicStates.PLUS.state

/-- `fundamentals.py:389` `IXYZ_VALUES`. -/
def ixyzValues : List IXYZ := [.I, .axis .X, .axis .Y, .axis .Z]

/-- `fundamentals.py:163-166` `tuple(ComplexUnit)`. -/
def unitValues : List ComplexUnit := [.one, .j, .minusOne, .minusJ]

/-- `pauli.py:155-166` `Pauli.iterate`, as the list of what it yields (`Pauli.__iter__` of the metaclass, l.25-27, is
`iterate()`). -/
def iterate (symbolOnly : Bool) : List Pauli :=
  let us := if symbolOnly then [ComplexUnit.one] else unitValues
  ixyzValues.flatMap fun symbol => us.map fun unit => ⟨symbol, unit⟩

/-- `fundamentals.py` the names of `I` and of the members of `Axis`. -/
def symbolName : IXYZ → String
  | .I => "I"
  | .axis .X => "X"
  | .axis .Y => "Y"
  | .axis .Z => "Z"

/-- `pauli.py:84-99` `Pauli._repr_impl`. -/
def reprImpl (p : Pauli) (prefix? : Option String) : String :=
  let sym := match prefix? with
    | some pre => pre ++ "." ++ symbolName p.symbol
    | none => symbolName p.symbol
  match p.unit with
  | .one => sym
  | .minusOne => "-" ++ sym
  | .j => "1j * " ++ sym
  | .minusJ => "-1j * " ++ sym

/-- `pauli.py:101-103` `Pauli.__repr__`. -/
def repr (p : Pauli) : String := p.reprImpl (some "Pauli")

/-- `pauli.py:105-107` `Pauli.__str__`. -/
def str (p : Pauli) : String := p.reprImpl none

end Pauli

end Graphix
