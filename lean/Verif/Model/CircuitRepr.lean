import Verif.Model.PrettyPrint
import Verif.Model.Circuit

/-!
# Model of `repr` of circuits

A text is the list of its tokens; an angle that is printed by `angle_to_str` is one token that holds the text. Angles are numbers (expressions with
parameters are printed by `str` and are not modelled).
-/

namespace Graphix

/-- The tokens: a name, an integer, the text of an angle, and punctuation. -/
inductive ITok
  | name (s : String) | int (n : ℕ) | ang (l : List PTok) | lpar | rpar | lbrack | rbrack | comma | dot | eq

/-- Texts separated by commas. -/
def joinInstrs : List (List ITok) → List ITok
  | [] => []
  | [t] => t
  | t :: ts => t ++ .comma :: joinInstrs ts

/-- `repr_mixins.py:27-46` `DataclassReprMixin.__repr__`: no field of an instruction has a default, so all are positional. -/
def callToks (cls : String) (args : List (List ITok)) : List ITok := [.name cls, .lpar] ++ joinInstrs args ++ [.rpar]

/-- The text of a pair of qubits. -/
def pairToks (u v : ℕ) : List ITok := [.lpar, .int u, .comma, .int v, .rpar]

/-- `repr_mixins.py:58-73` `EnumReprMixin.__repr__` of an `Axis`. -/
def axisToks (a : Axis) : List ITok := [.name "Axis", .dot, .name (match a with | .X => "X" | .Y => "Y" | .Z => "Z")]

/-- `instruction.py:25-36` `repr_angle` (of a number). -/
noncomputable def reprAngle (env : PpEnv) (θ : ℝ) : List ITok := [.ang (angleToStr env θ)]

/-- `repr` of an instruction, with the fields of `instruction.py:119-338` in their order. -/
noncomputable def reprInstr (env : PpEnv) : Instr → List ITok
  | .CCX c0 c1 t => callToks "CCX" [[.int t], pairToks c0 c1]
  | .RZZ c t θ => callToks "RZZ" [[.int t], [.int c], reprAngle env θ]
  | .CNOT c t => callToks "CNOT" [[.int t], [.int c]]
  | .CZ u v => callToks "CZ" [pairToks u v]
  | .SWAP u v => callToks "SWAP" [pairToks u v]
  | .H t => callToks "H" [[.int t]]
  | .S t => callToks "S" [[.int t]]
  | .X t => callToks "X" [[.int t]]
  | .Y t => callToks "Y" [[.int t]]
  | .Z t => callToks "Z" [[.int t]]
  | .I t => callToks "I" [[.int t]]
  | .M t a => callToks "M" [[.int t], axisToks a]
  | .RX t θ => callToks "RX" [[.int t], reprAngle env θ]
  | .RY t θ => callToks "RY" [[.int t], reprAngle env θ]
  | .RZ t θ => callToks "RZ" [[.int t], reprAngle env θ]
  | .J t θ => callToks "J" [[.int t], reprAngle env θ]

/-- `transpiler.py:181-183` `Circuit.__repr__`. -/
noncomputable def Circuit.repr (env : PpEnv) (c : Circuit) : List ITok :=
  [.name "Circuit", .lpar, .name "width", .eq, .int c.width, .comma, .name "instr", .eq, .lbrack] ++ joinInstrs (c.instrs.map (reprInstr env)) ++
    [.rbrack, .rpar]

end Graphix
