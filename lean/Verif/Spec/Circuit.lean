import Verif.Model.Circuit
import Verif.Spec.Semantics

/-!
# Specification: the meaning of circuits

Textbook gates on states of qubits named by natural numbers. Multi-qubit gates are given by their action on the basis
states, rotations about X and Y as `exp(-iθ/2 P) = cos(θ/2) - i sin(θ/2) P`.
-/

namespace Graphix

open Function

/-- CNOT: the target is flipped when the control is set. -/
def cnotOp (c t : ℕ) (ψ : QState) : QState := fun b => ψ (update b t (Bool.xor (b t) (b c)))

/-- Toffoli: the target is flipped when both controls are set. -/
def ccxOp (c0 c1 t : ℕ) (ψ : QState) : QState := fun b => ψ (update b t (Bool.xor (b t) (b c0 && b c1)))

/-- SWAP: the two bits are exchanged. -/
def swapOp (u v : ℕ) (ψ : QState) : QState := fun b => ψ (b ∘ Equiv.swap u v)

/-- `exp(-i θ/2 Z⊗Z)`, with `θ` in units of π. -/
noncomputable def rzzOp (c t : ℕ) (θ : ℝ) (ψ : QState) : QState := fun b =>
  Complex.exp (Complex.I * ((if b c = b t then -(θ * Real.pi / 2) else θ * Real.pi / 2 : ℝ) : ℂ)) * ψ b

/-- `exp(-i θ/2 P)` for a Pauli matrix `P`, with `θ` in units of π. -/
noncomputable def rot (P : Mat2) (θ : ℝ) : Mat2 :=
  (Real.cos (θ * Real.pi / 2) : ℂ) • (1 : Mat2) - (Complex.I * Real.sin (θ * Real.pi / 2)) • P

/-- The gate `J(θ) = H · diag(1, e^{iθ})` of the measurement calculus. -/
noncomputable def jGate (θ : ℝ) : Mat2 := Ops.H * mat2 1 0 0 (Complex.exp (Complex.I * (θ * Real.pi : ℝ)))

/-- The unitary of an instruction (the identity for a measurement). -/
noncomputable def Instr.gate : Instr → QState → QState
  | .CCX c0 c1 t => ccxOp c0 c1 t
  | .RZZ c t θ => rzzOp c t θ
  | .CNOT c t => cnotOp c t
  | .SWAP u v => swapOp u v
  | .CZ u v => cz u v
  | .H t => op1 Ops.H t
  | .S t => op1 Ops.S t
  | .X t => op1 Ops.X t
  | .Y t => op1 Ops.Y t
  | .Z t => op1 Ops.Z t
  | .I _ => id
  | .M _ _ => id
  | .RX t θ => op1 (rot Ops.X θ) t
  | .RY t θ => op1 (rot Ops.Y θ) t
  | .RZ t θ => op1 (rot Ops.Z θ) t
  | .J t θ => op1 (jGate θ) t

/-- Meaning of a circuit when its `k`-th measurement gives the outcome `o k`: a measurement projects the qubit on the
eigenvector of the axis and discards it. -/
noncomputable def semInstrs (o : ℕ → Bool) : ℕ → List Instr → QState → QState
  | _, [], ψ => ψ
  | k, .M t a :: l, ψ => semInstrs o (k + 1) l (projOut t (measVec (.pauli ⟨a, .plus⟩) (o k)) ψ)
  | k, i :: l, ψ => semInstrs o k l (i.gate ψ)

/-- The qubits of a gate that must be distinct are distinct. -/
def Instr.Proper : Instr → Prop
  | .CCX c0 c1 t => c0 ≠ c1 ∧ c0 ≠ t ∧ c1 ≠ t
  | .RZZ c t _ => c ≠ t
  | .CNOT c t => c ≠ t
  | .SWAP u v => u ≠ v
  | .CZ u v => u ≠ v
  | _ => True

end Graphix
