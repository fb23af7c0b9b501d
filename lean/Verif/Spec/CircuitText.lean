import Verif.Model.CircuitRepr
import Verif.Spec.PrintedNumber

/-!
# Specification: the value of the text of a circuit

The text of an angle has the value that a reader gives it (`3pi/2` is `3 · π / 2`). The classes of `graphix.instruction` take their arguments in the order
of their fields.
-/

namespace Graphix

/-- The instruction with one qubit of that name. -/
def instr1 (k : String) (t : ℕ) : Option Instr :=
  if k = "H" then some (.H t) else if k = "S" then some (.S t) else if k = "X" then some (.X t) else if k = "Y" then some (.Y t)
  else if k = "Z" then some (.Z t) else if k = "I" then some (.I t) else none

/-- The rotation of that name. -/
def instrRotation (k : String) (t : ℕ) (θ : ℝ) : Option Instr :=
  if k = "RX" then some (.RX t θ) else if k = "RY" then some (.RY t θ) else if k = "RZ" then some (.RZ t θ) else if k = "J" then some (.J t θ)
  else none

/-- The number that the text of an angle denotes. -/
noncomputable def angleValue (a : List PTok) : Option ℝ := (readNumber a).map Complex.re

/-- One instruction. -/
noncomputable def evalInstr : List ITok → Option (Instr × List ITok)
  | .name k :: .lpar :: .int t :: .rpar :: l => (instr1 k t).map fun i => (i, l)
  | .name k :: .lpar :: .int t :: .comma :: .ang a :: .rpar :: l => ((angleValue a).bind fun θ => instrRotation k t θ).map fun i => (i, l)
  | .name k :: .lpar :: .int t :: .comma :: .int c :: .rpar :: l => if k = "CNOT" then some (.CNOT (c := c) (t := t), l) else none
  | .name k :: .lpar :: .int t :: .comma :: .int c :: .comma :: .ang a :: .rpar :: l =>
    if k = "RZZ" then (angleValue a).map fun θ => (.RZZ (c := c) (t := t) θ, l) else none
  | .name k :: .lpar :: .int t :: .comma :: .lpar :: .int a :: .comma :: .int b :: .rpar :: .rpar :: l =>
    if k = "CCX" then some (.CCX (c0 := a) (c1 := b) (t := t), l) else none
  | .name k :: .lpar :: .int t :: .comma :: .name n :: .dot :: .name a :: .rpar :: l =>
    if k = "M" ∧ n = "Axis" then
      (if a = "X" then some Axis.X else if a = "Y" then some Axis.Y else if a = "Z" then some Axis.Z else none).map fun a => (.M t a, l)
    else none
  | .name k :: .lpar :: .lpar :: .int u :: .comma :: .int v :: .rpar :: .rpar :: l =>
    if k = "CZ" then some (.CZ u v, l) else if k = "SWAP" then some (.SWAP u v, l) else none
  | _ => none

/-- A list of instructions after its opening bracket, at most as many as the number. -/
noncomputable def evalInstrs : ℕ → List ITok → Option (List Instr × List ITok)
  | _, .rbrack :: l => some ([], l)
  | 0, _ => none
  | n + 1, l =>
    match evalInstr l with
    | some (i, .rbrack :: l') => some ([i], l')
    | some (i, .comma :: l') => (evalInstrs n l').map fun r => (i :: r.1, r.2)
    | _ => none

/-- The width and the instructions of the text of a circuit. -/
noncomputable def evalCircuit : List ITok → Option (ℕ × List Instr)
  | .name c :: .lpar :: .name w :: .eq :: .int n :: .comma :: .name i :: .eq :: .lbrack :: l =>
    if c = "Circuit" ∧ w = "width" ∧ i = "instr" then
      match evalInstrs l.length l with
      | some (is, [.rpar]) => some (n, is)
      | _ => none
    else none
  | _ => none

/-- The same instruction, but the angle of `b` is `π` times that of `a`, up to a relative error of `10⁻⁹`. -/
def SameInRadians : Instr → Instr → Prop
  | .RZZ c t θ, .RZZ c' t' θ' => c = c' ∧ t = t' ∧ ∃ x : ℝ, θ' = x * Real.pi ∧ |θ - x| ≤ 1 / 10 ^ 9 * max |θ| |x|
  | .RX t θ, .RX t' θ' | .RY t θ, .RY t' θ' | .RZ t θ, .RZ t' θ' | .J t θ, .J t' θ' =>
    t = t' ∧ ∃ x : ℝ, θ' = x * Real.pi ∧ |θ - x| ≤ 1 / 10 ^ 9 * max |θ| |x|
  | .RZZ .., _ | .RX .., _ | .RY .., _ | .RZ .., _ | .J .., _ => False
  | a, b => a = b

end Graphix
