import Verif.Model.PrettyPrint
import Verif.Model.Pattern
import Verif.Model.Flow

/-!
# Model of the part of `graphix/pretty_print.py` that prints patterns, flows and corrections

ASCII format. A text is the list of its tokens. The order in which Python iterates over a set is a parameter (`en`). Angles are numbers (an
`AffineExpression` is printed by `affine_expression_to_str`, which is not modelled).
-/

namespace Graphix

open scoped Classical

/-- The tokens of a printed pattern or flow: the kind of a command, `(`, `)`, `{`, `}`, `[`, `]`, `,`, a node, an angle, a plane, a Pauli measurement
(`+X`), the label of a Clifford gate, a space, `...(n more commands)`, ` = `, ` < `, `; `, and the name of a function. -/
inductive CTok
  | kw (k : Pattern.Kind) | lpar | rpar | lbrace | rbrace | lbrack | rbrack | comma | node (n : ℕ) | ang (l : List PTok) | plane (p : Plane)
  | pauli (s : Sign) (a : Axis) | label (s : String) | space | more (n : ℤ) | eq | lt | semi | name (s : String)

/-- `_db.py:69-95` `CLIFFORD_LABEL`. -/
def cliffordLabelTable : List String :=
  ["I", "X", "Y", "Z", "S", "Sdagger", "H", "\\sqrt{iX}", "\\sqrt{iY}", "\\sqrt{I}", "\\sqrt{-I}", "\\sqrt{I}", "\\sqrt{-iY}", "\\sqrt{-I}",
    "\\sqrt{-I}", "\\sqrt{-iX}", "I^{1/3}", "I^{1/3}", "I^{1/3}", "I^{1/3}", "I^{1/3}", "I^{1/3}", "I^{1/3}", "I^{1/3}", "I^{1/3}"]

/-- `clifford.py:114-116` `Clifford.__str__`. -/
def cliffordLabel (c : Clifford) : String := cliffordLabelTable.getD (Fin.val (n := 24) c) ""

/-- `','.join(str(node) for node in domain)`. -/
def commaNodes : List ℕ → List CTok
  | [] => []
  | [n] => [.node n]
  | n :: l => .node n :: .comma :: commaNodes l

/-- `pretty_print.py:152-154` `domain_to_str`. -/
def domainToStr (en : Finset ℕ → List ℕ) (d : Finset ℕ) : List CTok := [.lbrace] ++ commaNodes (en d) ++ [.rbrace]

/-- `pretty_print.py:213-232`: the arguments of a measurement, each after a comma. -/
noncomputable def measurementArgs (env : PpEnv) : Measurement → List CTok
  | .bloch m => (if m.plane ≠ .XY then [.comma, .plane m.plane] else []) ++ [.comma, .ang (angleToStr env m.angle)]
  | .pauli m => if m.axis = .X ∧ m.sign = .plus then [] else [.comma, .pauli m.sign m.axis]

/-- `pretty_print.py:252-254`: the domain of an X, Z or S command, unless it is empty. -/
def domainArg (en : Finset ℕ → List ℕ) (d : Finset ℕ) : List CTok := if d = ∅ then [] else [.comma] ++ domainToStr en d

/-- `pretty_print.py:180-279` `command_to_str`. -/
noncomputable def commandToStr (env : PpEnv) (en : Finset ℕ → List ℕ) : Command → List CTok
  | .E u v => [.kw .E, .lpar, .node u, .comma, .node v, .rpar]
  | .T => [.kw .T]
  | .N n _ => [.kw .N, .lpar, .node n, .rpar]
  | .C n c => [.kw .C, .lpar, .node n, .comma, .label (cliffordLabel c), .rpar]
  | .X n d => [.kw .X, .lpar, .node n] ++ domainArg en d ++ [.rpar]
  | .Z n d => [.kw .Z, .lpar, .node n] ++ domainArg en d ++ [.rpar]
  | .S n d => [.kw .S, .lpar, .node n] ++ domainArg en d ++ [.rpar]
  | .M n m s t =>
    let out := [CTok.kw .M, .lpar, .node n] ++ measurementArgs env m ++ [.rpar]
    let out := if s = ∅ ∧ t = ∅ then out else
      (if t = ∅ then [] else domainToStr en t) ++ ([.lbrack] ++ out ++ [.rbrack])
    if s = ∅ then out else out ++ domainToStr en s

/-- Python's `l[:k]`. -/
def pySlice {α : Type} (l : List α) (k : ℤ) : List α := if 0 ≤ k then l.take k.toNat else l.take (l.length + k).toNat

/-- `separator.join(texts)`. -/
def joinWith (sep : List CTok) : List (List CTok) → List CTok
  | [] => []
  | [t] => t
  | t :: ts => t ++ sep ++ joinWith sep ts

/-- `pretty_print.py:310-314`: the commands to be printed, in order. -/
def printedCommands (seq : List Command) (leftToRight : Bool) (target : Option (Pattern.Kind → Bool)) : List Command :=
  let l := match target with
    | none => seq
    | some t => seq.filter fun c => t (Pattern.kindOf c)
  if leftToRight then l else l.reverse

/-- `pretty_print.py:282-324` `pattern_to_str`. -/
noncomputable def patternToStr (env : PpEnv) (en : Finset ℕ → List ℕ) (p : Pattern) (leftToRight : Bool) (limit : Option ℤ)
    (target : Option (Pattern.Kind → Bool)) : List CTok :=
  let l := printedCommands p.seq leftToRight target
  match limit with
  | none => joinWith [.space] (l.map (commandToStr env en))
  | some k =>
    if (l.length : ℤ) > k then joinWith [.space] ((pySlice l (k - 1)).map (commandToStr env en)) ++ [.more ((l.length : ℤ) - k + 1)]
    else joinWith [.space] (l.map (commandToStr env en))

/-- `pretty_print.py:327-341` `set_to_str` (its separator is `, `; here the same token). -/
def setToStr (en : Finset ℕ → List ℕ) (s : Finset ℕ) : List CTok := [.lbrace] ++ commaNodes (en s) ++ [.rbrace]

/-- `pretty_print.py:344-379` `correction_function_to_str` on one line. -/
def correctionToStr (en : Finset ℕ → List ℕ) (name : String) (f : PyDict ℕ (Finset ℕ)) : List CTok :=
  joinWith [.comma] (f.map fun kv => [.name name, .lpar, .node kv.1, .rpar, .eq] ++ setToStr en kv.2)

/-- `pretty_print.py:382-407` `partial_order_to_str`. -/
def partialOrderToStr (en : Finset ℕ → List ℕ) (layers : List (Finset ℕ)) : List CTok := joinWith [.lt] (layers.reverse.map (setToStr en))

/-- `pretty_print.py:433-462` `flow_to_str` on one line. -/
def flowToStr (en : Finset ℕ → List ℕ) (name : String) (f : Flow) : List CTok :=
  joinWith [.semi] [correctionToStr en name f.corr, partialOrderToStr en f.layers]

/-- `pretty_print.py:465-495` `xzcorr_to_str` on one line. -/
def xzcorrToStr (en : Finset ℕ → List ℕ) (c : XZCorrections) : List CTok :=
  joinWith [.semi] [correctionToStr en "x" c.x, correctionToStr en "z" c.z, partialOrderToStr en c.layers]

end Graphix
