import Verif.Model.CircExt
import Verif.Spec.Circuit

/-!
# Specification: Pauli strings as operators
-/

namespace Graphix

/-- The matrix that a Pauli string applies to qubit `q`. -/
noncomputable def PauliString.mat (p : PauliString) (q : ℕ) : Mat2 :=
  match p.axes.get? q with
  | none => 1
  | some a => Ops.fromAxis a

/-- The signed tensor product of Pauli matrices on the qubits `0, …, dim - 1`. -/
noncomputable def PauliString.op (p : PauliString) (ψ : QState) : QState :=
  p.sign.toComplex • (List.range p.dim).foldr (fun q φ => op1 (p.mat q) q φ) ψ

/-- `exp(i α P) = cos α + i sin α P` (as `P² = 1`), with `α` in units of π. -/
noncomputable def PauliExponential.op (e : PauliExponential) (ψ : QState) : QState :=
  (Real.cos (e.angle * Real.pi) : ℂ) • ψ + (Complex.I * Real.sin (e.angle * Real.pi)) • e.ps.op ψ

/-- A Pauli string whose indices are qubits and whose dictionary has each key once. -/
structure PauliString.Valid (p : PauliString) : Prop where
  keys : p.axes.keys.Nodup
  range : ∀ i ∈ p.axes.keys, i < p.dim

/-- Commutation of two operators. -/
def Commute' (F G : QState → QState) : Prop := ∀ ψ, F (G ψ) = G (F ψ)

/-- Anticommutation of two operators. -/
def Anticommute (F G : QState → QState) : Prop := ∀ ψ, F (G ψ) = -G (F ψ)

/-- The images of the generators in a Clifford map: `n` signed Pauli strings on `n` qubits for X and for Z, with the
commutation relations of the generators. -/
structure CliffordMap.Valid (cm : CliffordMap) (n : ℕ) : Prop where
  inputs : cm.inputs.length = n
  outputs : cm.outputs.length = n
  xlen : cm.xMap.length = n
  zlen : cm.zMap.length = n
  x_ok : ∀ p ∈ cm.xMap, p.Valid ∧ p.dim = n
  z_ok : ∀ p ∈ cm.zMap, p.Valid ∧ p.dim = n
  xx : ∀ p ∈ cm.xMap, ∀ q ∈ cm.xMap, Commute' p.op q.op
  zz : ∀ p ∈ cm.zMap, ∀ q ∈ cm.zMap, Commute' p.op q.op
  xz : ∀ (i j : ℕ) p q, cm.xMap[i]? = some p → cm.zMap[j]? = some q →
    if i = j then Anticommute p.op q.op else Commute' p.op q.op

end Graphix
