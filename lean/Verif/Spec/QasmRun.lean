import Verif.Model.Qasm

/-!
# Specification: what the text written by the exporter has to mean

The qubits of the text are the nodes of the pattern.  A measured node stays in the program, in the basis state of its outcome.
-/

namespace Graphix

open scoped Classical

/-- The state `φ` of the other qubits, with the qubits of `l` in the basis states of their outcomes. -/
noncomputable def withOutcomes (r : ℕ → Bool) (l : List ℕ) (φ : QState) : QState := fun b => if ∀ n ∈ l, b n = r n then φ b else 0

/-- The commands that can be written: preparations in `|0⟩` or `|+⟩`, no `S`, no `T`. -/
def Command.Exportable : Command → Prop
  | .N _ s => s = PlanarState.zeroState ∨ s = PlanarState.plus
  | .S _ _ => False
  | .T => False
  | _ => True

/-- Equal up to a relative error of `1e-9`. -/
def CloseAngle (a b : ℝ) : Prop := |a - b| ≤ 1 / 10 ^ 9 * max |a| |b|

/-- The same command, except that the angle of a measurement can be rounded. -/
def CloseCmd : Command → Command → Prop
  | .M n m s t, c => ∃ a, CloseAngle m.toBloch.angle a ∧ c = .M n (.bloch ⟨a, m.toBloch.plane⟩) s t
  | c, c' => c' = c

/-- The same instruction, except that the angle can be rounded. -/
def CloseInstr : Instr → Instr → Prop
  | .RX t θ, i => ∃ a, CloseAngle θ a ∧ i = .RX t a
  | .RY t θ, i => ∃ a, CloseAngle θ a ∧ i = .RY t a
  | .RZ t θ, i => ∃ a, CloseAngle θ a ∧ i = .RZ t a
  | .J t θ, i => ∃ a, CloseAngle θ a ∧ i = .J t a
  | i, i' => i' = i

/-- Not an `RZZ`. -/
def Instr.NotRZZ : Instr → Prop
  | .RZZ _ _ _ => False
  | _ => True

/-- The angle of the instruction, if any, has a denominator at most `1000`. -/
def Instr.SmallAngle : Instr → Prop
  | .RX _ θ | .RY _ θ | .RZ _ θ | .J _ θ => ∃ q : ℚ, q.den ≤ 1000 ∧ θ = q
  | _ => True

/-- The angle of the command, if any, has a denominator at most `1000`. -/
def Command.SmallAngle : Command → Prop
  | .M _ m _ _ => ∃ q : ℚ, q.den ≤ 1000 ∧ m.toBloch.angle = q
  | _ => True

/-- `Fraction.limit_denominator(1000)` does not change a rational with a denominator at most `1000`. -/
def QasmEnv.Exact (env : QasmEnv) : Prop := ∀ q : ℚ, q.den ≤ 1000 → env.lim q = q

/-- `ord` lists the elements of every set once. -/
def QasmEnv.Valid (env : QasmEnv) : Prop := ∀ d, (env.ord d).Nodup ∧ (env.ord d).toFinset = d

end Graphix
