import Verif.Model.PrintPattern

/-!
# Model of `repr` of commands and patterns

A text is the list of its Python tokens. The order in which Python iterates over a set is a parameter (`en`). A number is printed by `str(angle)`
(`repr` of a Python `float` reads back exactly, so a float is one token).
-/

namespace Graphix

open scoped Classical

/-- The tokens of a Python expression: a name, an integer, a floating point number, and punctuation. -/
inductive RTok
  | name (s : String) | int (n : ℕ) | flt (x : ℝ) | lpar | rpar | lbrack | rbrack | lbrace | rbrace | comma | dot | eq | minus | at

/-- `repr` of a number. -/
noncomputable def reprFloat (x : ℝ) : List RTok := if x < 0 then [.minus, .flt (-x)] else [.flt x]

/-- Texts separated by commas. -/
def joinComma : List (List RTok) → List RTok
  | [] => []
  | [t] => t
  | t :: ts => t ++ .comma :: joinComma ts

/-- `repr` of a list of nodes. -/
def reprNodes (l : List ℕ) : List RTok := .lbrack :: joinComma (l.map fun n => [.int n]) ++ [.rbrack]

/-- `repr` of a set of nodes that is not empty. -/
def reprSet (en : Finset ℕ → List ℕ) (d : Finset ℕ) : List RTok := .lbrace :: joinComma ((en d).map fun n => [.int n]) ++ [.rbrace]

/-- The name of a member of `Plane`. -/
def planeName : Plane → String
  | .XY => "XY"
  | .YZ => "YZ"
  | .XZ => "XZ"

/-- The name of a member of `Axis`. -/
def axisName : Axis → String
  | .X => "X"
  | .Y => "Y"
  | .Z => "Z"

/-- `measurements.py:222-232` `BlochMeasurement.__repr__` and `measurements.py:355-367` `PauliMeasurement.__repr__`. -/
noncomputable def reprMeasurement : Measurement → List RTok
  | .bloch m => [.name "Measurement", .dot, .name (planeName m.plane), .lpar] ++ reprFloat m.angle ++ [.rpar]
  | .pauli m => (if m.sign = .minus then [.minus] else []) ++ [.name "Measurement", .dot, .name (axisName m.axis)]

/-- `states.py:59-61` `PlanarState.__repr__`. -/
noncomputable def reprState (s : PlanarState) : List RTok :=
  [.name "graphix", .dot, .name "states", .dot, .name "PlanarState", .lpar, .name "Plane", .dot, .name (planeName s.plane), .comma] ++
    reprFloat s.angle ++ [.rpar]

/-- `" @ ".join(...)`. -/
def joinAt : List (List RTok) → List RTok
  | [] => []
  | [t] => t
  | t :: ts => t ++ .at :: joinAt ts

/-- `clifford.py:107-112` `Clifford.__repr__`. -/
def reprClifford (c : Clifford) : List RTok :=
  let formula := joinAt (c.hsz.map fun g => [.name "Clifford", .dot, .name (cliffordLabel g)])
  if c.hsz.length = 1 then formula else [.lpar] ++ formula ++ [.rpar]

/-- `repr_mixins.py:31-45`: the arguments of `DataclassReprMixin.__repr__`. A field has a name, the text of its value, and whether it has a default
that is equal to the value. `saw` is `saw_omitted`. -/
def dataclassArgs : Bool → List (String × List RTok × Bool) → List (List RTok)
  | _, [] => []
  | _, (_, _, true) :: l => dataclassArgs true l
  | true, (nm, v, false) :: l => (.name nm :: .eq :: v) :: dataclassArgs true l
  | false, (_, v, false) :: l => v :: dataclassArgs false l

/-- `repr_mixins.py:27-46` `DataclassReprMixin.__repr__`. -/
def dataclassRepr (cls : String) (fields : List (String × List RTok × Bool)) : List RTok :=
  [.name cls, .lpar] ++ joinComma (dataclassArgs false fields) ++ [.rpar]

/-- `repr` of a command, with the fields and the defaults of `command.py:74-301`. -/
noncomputable def reprCommand (en : Finset ℕ → List ℕ) : Command → List RTok
  | .N n s => dataclassRepr "N" [("node", [.int n], false), ("state", reprState s, decide (s = PlanarState.plus))]
  | .M n m s t => dataclassRepr "M" [("node", [.int n], false), ("measurement", reprMeasurement m, decide (m = .pauli ⟨.X, .plus⟩)),
      ("s_domain", reprSet en s, decide (s = ∅)), ("t_domain", reprSet en t, decide (t = ∅))]
  | .E u v => dataclassRepr "E" [("nodes", [.lpar, .int u, .comma, .int v, .rpar], false)]
  | .C n c => dataclassRepr "C" [("node", [.int n], false), ("clifford", reprClifford c, false)]
  | .X n d => dataclassRepr "X" [("node", [.int n], false), ("domain", reprSet en d, decide (d = ∅))]
  | .Z n d => dataclassRepr "Z" [("node", [.int n], false), ("domain", reprSet en d, decide (d = ∅))]
  | .S n d => dataclassRepr "S" [("node", [.int n], false), ("domain", reprSet en d, decide (d = ∅))]
  | .T => dataclassRepr "T" []

/-- `pattern.py:439-448` `Pattern.__repr__`. -/
noncomputable def Pattern.repr (en : Finset ℕ → List ℕ) (p : Pattern) : List RTok :=
  let args := (if p.inputs = [] then [] else [[RTok.name "input_nodes", .eq] ++ reprNodes p.inputs]) ++
    (if p.seq = [] then [] else [[RTok.name "cmds", .eq, .lbrack] ++ joinComma (p.seq.map (reprCommand en)) ++ [.rbrack]]) ++
    (if p.outputs = [] then [] else [[RTok.name "output_nodes", .eq] ++ reprNodes p.outputs])
  [.name "Pattern", .lpar] ++ joinComma args ++ [.rpar]

/-- `pattern.py:88-120` `Pattern.__init__`; `none` is an argument that is not given. -/
def Pattern.construct (inputs : Option (List ℕ)) (cmds : Option (List Command)) (outputs : Option (List ℕ)) : Except PyErr Pattern :=
  let p := Pattern.empty (inputs.getD [])
  let p := match cmds with
    | some l => p.extend l
    | none => p
  match outputs with
  | some o => p.reorderOutputNodes o
  | none => .ok p

end Graphix
