import Verif.Model.Fundamentals

/-!
# Specification: reading the Python expression of a Pauli

`Pauli.X` is the operator of the axis, `-p` its opposite and `1j * p` its product with a complex unit (in Python
`-1j * p` is `(-1j) * p`). `pre` is the text before the name of the symbol (`Pauli.` in an expression, nothing in the
simplified string).
-/

namespace Graphix

/-- The operator named by `pre` and a symbol. -/
def readSymbol (pre : List Char) (l : List Char) : Option Pauli :=
  if l = pre ++ ['I'] then some ⟨.I, .one⟩
  else if l = pre ++ ['X'] then some ⟨.axis .X, .one⟩
  else if l = pre ++ ['Y'] then some ⟨.axis .Y, .one⟩
  else if l = pre ++ ['Z'] then some ⟨.axis .Z, .one⟩
  else none

/-- The value of a Python expression for a Pauli. -/
def readPauli (pre : List Char) : List Char → Option Pauli
  | '1' :: 'j' :: ' ' :: '*' :: ' ' :: l => (readSymbol pre l).map fun p => p.mulUnit .j
  | '-' :: '1' :: 'j' :: ' ' :: '*' :: ' ' :: l => (readSymbol pre l).map fun p => p.mulUnit .minusJ
  | '-' :: l => (readSymbol pre l).map Pauli.neg
  | l => readSymbol pre l

end Graphix
