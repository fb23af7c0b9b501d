import Verif.Model.Pattern
import Verif.Model.Circuit
import Verif.Spec.Qasm

/-!
# Model of `graphix/qasm3_exporter.py`

The text is modelled by the list of its tokens (`QTok`): the comments, the spaces and the line breaks are left out (`str(cmd)`, written in
comments, has no line break).  The angles are real numbers: a literal that is the decimal expansion of a float is the token `real`, and
printing and reading it is exact. The angles that are symbolic expressions (`TypeError`) are left out.
-/

namespace Graphix

open scoped Classical

/-- What the text depends on besides the program: `lim` is `Fraction(angle).limit_denominator(1000)`, `ord` the order of the elements of a
set. -/
structure QasmEnv where
  lim : ℝ → ℚ
  ord : Finset ℕ → List ℕ

/-- `math.isclose(a, b)` (relative tolerance `1e-9`). -/
noncomputable def mathIsclose (a b : ℝ) : Prop := |a - b| ≤ 1 / 10 ^ 9 * max |a| |b|

/-- `str(x)` for a float. -/
noncomputable def floatToks (x : ℝ) : List QTok := if x < 0 then [.minus, .real (-x)] else [.real x]

/-- `pretty_print.py:77-149` `angle_to_str(angle, output=ASCII, multiplication_sign=True)` and `qasm3_exporter.py:89-93` `angle_to_qasm3`. -/
noncomputable def angleToQasm3 (env : QasmEnv) (angle : ℝ) : List QTok :=
  let frac := env.lim angle
  if ¬ mathIsclose angle frac then floatToks (angle * Real.pi)
  else
    let sign := if frac.num < 0 then [QTok.minus] else []
    let num := frac.num.natAbs
    if frac.den = 1 then
      match num with
      | 0 => [.nat 0]
      | 1 => sign ++ [.pi]
      | k => sign ++ [.nat k, .times, .pi]
    else
      let numStr := if num = 1 then [QTok.pi] else [.nat num, .times, .pi]
      sign ++ numStr ++ [.div, .nat frac.den]

/-! ### Circuits -/

/-- `qasm3_exporter.py:75-77` `qasm3_qubit`. -/
def qasm3Qubit (i : ℕ) : List QTok := [.regQ, .lbrack, .nat i, .rbrack]

/-- `", ".join(…)`. -/
def commaJoin : List (List QTok) → List QTok
  | [] => []
  | [t] => t
  | t :: ts => t ++ .comma :: commaJoin ts

/-- `qasm3_exporter.py:80-86` `qasm3_gate_call`. -/
def qasm3GateCall (gate : String) (operands : List (List QTok)) (args : Option (List (List QTok)) := none) : List QTok :=
  match args with
  | none => .name gate :: commaJoin operands
  | some args => .name gate :: .lpar :: commaJoin args ++ .rpar :: commaJoin operands

/-- `qasm3_exporter.py:96-155` `instruction_to_qasm3`. -/
noncomputable def instructionToQasm3 (env : QasmEnv) : Instr → Except PyErr (List QTok)
  | .M t a =>
    if a ≠ .Z then .error .valueError
    else .ok [.regB, .lbrack, .nat t, .rbrack, .eq, .measure, .regQ, .lbrack, .nat t, .rbrack]
  | .RX t θ => .ok (qasm3GateCall "rx" [qasm3Qubit t] (some [angleToQasm3 env θ]))
  | .RY t θ => .ok (qasm3GateCall "ry" [qasm3Qubit t] (some [angleToQasm3 env θ]))
  | .RZ t θ => .ok (qasm3GateCall "rz" [qasm3Qubit t] (some [angleToQasm3 env θ]))
  | .J _ _ => .error .valueError
  | .H t => .ok (qasm3GateCall "h" [qasm3Qubit t])
  | .S t => .ok (qasm3GateCall "s" [qasm3Qubit t])
  | .X t => .ok (qasm3GateCall "x" [qasm3Qubit t])
  | .Y t => .ok (qasm3GateCall "y" [qasm3Qubit t])
  | .Z t => .ok (qasm3GateCall "z" [qasm3Qubit t])
  | .I t => .ok (qasm3GateCall "id" [qasm3Qubit t])
  | .CNOT c t => .ok (qasm3GateCall "cx" [qasm3Qubit c, qasm3Qubit t])
  | .SWAP u v => .ok (qasm3GateCall "swap" [qasm3Qubit u, qasm3Qubit v])
  | .CZ u v => .ok (qasm3GateCall "cz" [qasm3Qubit u, qasm3Qubit v])
  | .RZZ c t θ => .ok (qasm3GateCall "crz" [qasm3Qubit c, qasm3Qubit t] (some [angleToQasm3 env θ]))
  | .CCX c0 c1 t => .ok (qasm3GateCall "ccx" [qasm3Qubit c0, qasm3Qubit c1, qasm3Qubit t])

/-- `qasm3_exporter.py:71-72`: the loop on the instructions. -/
noncomputable def instructionsToQasm3 (env : QasmEnv) : List Instr → Except PyErr (List QTok)
  | [] => .ok []
  | i :: l => do
    let t ← instructionToQasm3 env i
    let ts ← instructionsToQasm3 env l
    return t ++ .semi :: ts

/-- `instr.kind == InstructionKind.M`. -/
def Instr.isM : Instr → Bool
  | .M _ _ => true
  | _ => false

/-- `qasm3_exporter.py:66-72`: the lines of a circuit. -/
noncomputable def circuitLines (env : QasmEnv) (c : Circuit) : Except PyErr (List QTok) := do
  let body ← instructionsToQasm3 env c.instrs
  return [.openqasm, .nat 3, .semi, .include_, .stdgates, .semi] ++ [.qubit, .lbrack, .nat c.width, .rbrack, .regQ, .semi] ++
    (if c.instrs.any Instr.isM then [.bit, .lbrack, .nat c.width, .rbrack, .regB, .semi] else []) ++ body

/-- `qasm3_exporter.py:25-72` `circuit_to_qasm3`. -/
noncomputable def circuitToQasm3 (env : QasmEnv) (c : Circuit) (transpile : Bool := true) : Except PyErr (List QTok) := do
  if transpile then
    let c ← c.transpileJToRzh
    let c ← c.transpileMeasurementsToZAxis
    circuitLines env c
  else circuitLines env c

/-! ### Patterns -/

/-- `states.py:86` `BasicStates.ZERO`. -/
noncomputable def PlanarState.zeroState : PlanarState := ⟨.XZ, 0⟩

/-- `qasm3_exporter.py:257-266` `state_to_qasm3_lines`. -/
noncomputable def stateToQasm3 (node : ℕ) (s : PlanarState) : Except PyErr (List QTok) :=
  if s = PlanarState.zeroState then .ok []
  else if s = PlanarState.plus then .ok [.name "h", .q node, .semi]
  else .error .valueError

/-- `" ^ ".join(f"c{node}" for node in domain)`. -/
def xorJoin : List ℕ → List QTok
  | [] => []
  | [n] => [.c n]
  | n :: l => .c n :: .xor :: xorJoin l

/-- `qasm3_exporter.py:269-289` `domain_to_qasm3_lines`, with the command `gate qnode`. -/
def domainToQasm3 (env : QasmEnv) (domain : Finset ℕ) (gate : String) (node : ℕ) : List QTok :=
  let condition := xorJoin (env.ord domain)
  if condition.isEmpty then []
  else [.if_, .lpar] ++ condition ++ [.rpar, .lbrace] ++ [.name gate, .q node, .semi] ++ [.rbrace]

/-- `qasm3_exporter.py:225-241`: the rotation before a measurement. -/
noncomputable def rotationToQasm3 (env : QasmEnv) (node : ℕ) (bloch : BlochMeasurement) : List QTok :=
  (if bloch.plane = .XY then [.name "h", .q node, .semi] else []) ++
  if bloch.angle ≠ 0 then
    let (gate, angle) := match bloch.plane with
      | .XY => ("rx", -bloch.angle)
      | .XZ => ("ry", -bloch.angle)
      | .YZ => ("rx", bloch.angle)
    [.name gate, .lpar] ++ angleToQasm3 env angle ++ [.rpar, .q node, .semi]
  else []

/-- `qasm3_exporter.py:199-254` `command_to_qasm3_lines`. -/
noncomputable def commandToQasm3 (env : QasmEnv) : Command → Except PyErr (List QTok)
  | .N n s => do
    let l ← stateToQasm3 n s
    return [.qubit, .q n, .semi] ++ l
  | .E u v => .ok [.name "cz", .q u, .comma, .q v, .semi]
  | .M n m s t => .ok (domainToQasm3 env s "x" n ++ domainToQasm3 env t "z" n ++ rotationToQasm3 env n m.toBloch ++
      [.bit, .c n, .semi] ++ [.c n, .eq, .measure, .q n, .semi])
  | .X n d => .ok (domainToQasm3 env d "x" n)
  | .Z n d => .ok (domainToQasm3 env d "z" n)
  | .C n c => .ok (c.qasm3.flatMap fun op => [.name op, .q n, .semi])
  | .S _ _ => .error .valueError
  | .T => .error .valueError

/-- `qasm3_exporter.py:195-196`: the loop on the commands. -/
noncomputable def commandsToQasm3 (env : QasmEnv) : List Command → Except PyErr (List QTok)
  | [] => .ok []
  | c :: l => do
    let t ← commandToQasm3 env c
    let ts ← commandsToQasm3 env l
    return t ++ ts

/-- `qasm3_exporter.py:190-194`: the loop on the input nodes; `st n` is `input_state`, or `input_state[n]` if it is a dictionary
(`none`: `KeyError`). -/
noncomputable def inputsToQasm3 (st : ℕ → Option PlanarState) : List ℕ → Except PyErr (List QTok)
  | [] => .ok []
  | n :: l => do
    let s ← match st n with
      | some s => Except.ok s
      | none => .error .keyError
    let t ← stateToQasm3 n s
    let ts ← inputsToQasm3 st l
    return [.qubit, .q n, .semi] ++ t ++ ts

/-- `qasm3_exporter.py:158-196` `pattern_to_qasm3`. -/
noncomputable def patternToQasm3 (env : QasmEnv) (p : Pattern) (st : ℕ → Option PlanarState) : Except PyErr (List QTok) := do
  let ins ← inputsToQasm3 st p.inputs
  let cmds ← commandsToQasm3 env p.seq
  return [.openqasm, .nat 3, .semi, .include_, .stdgates, .semi] ++ ins ++ cmds

end Graphix
