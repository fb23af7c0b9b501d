import Verif.Model.PatternRepr

/-!
# Specification: the value of the Python expression of a command or a pattern

The classes of `graphix.command`, `Measurement`, `Clifford`, `Plane`, `Pattern` and the module `graphix` are in scope. Every reader returns the value and
the tokens that follow it.
-/

namespace Graphix

open scoped Classical

/-- The value of an argument of a command. -/
inductive PyVal
  | int (n : ℕ) | set (l : List ℕ) | pair (u v : ℕ) | meas (m : Measurement) | cliff (c : Clifford) | state (s : PlanarState)

def planeNamed (s : String) : Option Plane :=
  if s = "XY" then some .XY else if s = "YZ" then some .YZ else if s = "XZ" then some .XZ else none

def axisNamed (s : String) : Option Axis :=
  if s = "X" then some .X else if s = "Y" then some .Y else if s = "Z" then some .Z else none

def cliffordNamed (s : String) : Option Clifford :=
  if s = "I" then some Clifford.I else if s = "X" then some Clifford.X else if s = "Y" then some Clifford.Y
  else if s = "Z" then some Clifford.Z else if s = "S" then some Clifford.S else if s = "SDG" then some Clifford.SDG
  else if s = "H" then some Clifford.H else none

/-- A number, perhaps with a unary minus. -/
noncomputable def readFloat : List RTok → Option (ℝ × List RTok)
  | .flt x :: l => some (x, l)
  | .minus :: .flt x :: l => some (-x, l)
  | _ => none

/-- Integers up to the closing token of a list (or of a set). -/
def readInts (close : RTok) : List RTok → Option (List ℕ × List RTok)
  | .int n :: .comma :: l => (readInts close l).map fun r => (n :: r.1, r.2)
  | .int n :: .rbrack :: l => match close with
    | .rbrack => some ([n], l)
    | _ => none
  | .int n :: .rbrace :: l => match close with
    | .rbrace => some ([n], l)
    | _ => none
  | _ => none

/-- `Measurement.XY(0.5)` or `Measurement.X`. -/
noncomputable def readMeasurement : List RTok → Option (Measurement × List RTok)
  | .name s :: .dot :: .name p :: .lpar :: l =>
    if s = "Measurement" then
      match planeNamed p, readFloat l with
      | some p, some (x, .rpar :: l') => some (.bloch ⟨x, p⟩, l')
      | _, _ => none
    else none
  | .name s :: .dot :: .name a :: l => if s = "Measurement" then (axisNamed a).map fun a => (.pauli ⟨a, .plus⟩, l) else none
  | _ => none

/-- `@` is left-associative. -/
def readProduct (acc : Clifford) : List RTok → Option (Clifford × List RTok)
  | .at :: .name s :: .dot :: .name g :: l =>
    if s = "Clifford" then (cliffordNamed g).bind fun g => readProduct (acc.mul g) l else none
  | l => some (acc, l)

/-- `Clifford.H` or `Clifford.H @ Clifford.S`. -/
def readClifford : List RTok → Option (Clifford × List RTok)
  | .name s :: .dot :: .name g :: l => if s = "Clifford" then (cliffordNamed g).bind fun g => readProduct g l else none
  | _ => none

/-- The arguments of `graphix.states.PlanarState`. -/
noncomputable def readPlanarState : List RTok → Option (PlanarState × List RTok)
  | .name pl :: .dot :: .name p :: .comma :: l =>
    if pl = "Plane" then
      match planeNamed p, readFloat l with
      | some p, some (x, .rpar :: l') => some (⟨p, x⟩, l')
      | _, _ => none
    else none
  | _ => none

/-- The value of an argument. -/
noncomputable def readVal : List RTok → Option (PyVal × List RTok)
  | .int n :: l => some (.int n, l)
  | .lbrace :: l => (readInts .rbrace l).map fun r => (.set r.1, r.2)
  | .lpar :: .int u :: .comma :: .int v :: .rpar :: l => some (.pair u v, l)
  | .lpar :: l =>
    match readClifford l with
    | some (c, .rpar :: l') => some (.cliff c, l')
    | _ => none
  | .minus :: l =>
    match readMeasurement l with
    | some (.pauli m, l') => some (.meas (.pauli ⟨m.axis, m.sign.neg⟩), l')
    | _ => none
  | .name s :: l =>
    if s = "Measurement" then (readMeasurement (.name s :: l)).map fun r => (.meas r.1, r.2)
    else if s = "Clifford" then (readClifford (.name s :: l)).map fun r => (.cliff r.1, r.2)
    else
      match l with
      | .dot :: .name a :: .dot :: .name b :: .lpar :: l' =>
        if s = "graphix" ∧ a = "states" ∧ b = "PlanarState" then (readPlanarState l').map fun r => (.state r.1, r.2) else none
      | _ => none
  | _ => none

/-- An argument, perhaps with a name. -/
noncomputable def readArg : List RTok → Option ((Option String × PyVal) × List RTok)
  | .name s :: .eq :: l => (readVal l).map fun r => ((some s, r.1), r.2)
  | l => (readVal l).map fun r => ((none, r.1), r.2)

/-- The arguments of a call up to its closing parenthesis, at most as many as the number. -/
noncomputable def readArguments : ℕ → List RTok → Option (List (Option String × PyVal) × List RTok)
  | _, .rpar :: l => some ([], l)
  | 0, _ => none
  | n + 1, l =>
    match readArg l with
    | some (a, .rpar :: l') => some ([a], l')
    | some (a, .comma :: l') => (readArguments n l').map fun r => (a :: r.1, r.2)
    | _ => none

/-- Python binds the arguments of a call to the parameters: those without name come first, and are bound in order; the others are bound by name; a
parameter without argument has its default. -/
def bindArguments : List (String × Option PyVal) → List (Option String × PyVal) → Option (List PyVal)
  | [], [] => some []
  | [], _ :: _ => none
  | _ :: fs, (none, v) :: as => (bindArguments fs as).map (v :: ·)
  | f :: fs, as =>
    if as.all fun a => a.1.isSome then
      match as.find? fun a => a.1 = some f.1 with
      | some a => (bindArguments fs (as.eraseP fun a => a.1 = some f.1)).map (a.2 :: ·)
      | none => f.2.bind fun d => (bindArguments fs as).map (d :: ·)
    else none

/-- The constructors of the commands, with the defaults of their parameters. -/
noncomputable def buildCommand (cls : String) (args : List (Option String × PyVal)) : Option Command :=
  if cls = "N" then
    match bindArguments [("node", none), ("state", some (.state ⟨.XY, 0⟩))] args with
    | some [.int n, .state s] => some (.N n s)
    | _ => none
  else if cls = "M" then
    match bindArguments [("node", none), ("measurement", some (.meas (.pauli ⟨.X, .plus⟩))), ("s_domain", some (.set [])), ("t_domain", some (.set []))]
      args with
    | some [.int n, .meas m, .set s, .set t] => some (.M n m s.toFinset t.toFinset)
    | _ => none
  else if cls = "E" then
    match bindArguments [("nodes", none)] args with
    | some [.pair u v] => some (.E u v)
    | _ => none
  else if cls = "C" then
    match bindArguments [("node", none), ("clifford", none)] args with
    | some [.int n, .cliff c] => some (.C n c)
    | _ => none
  else if cls = "X" then
    match bindArguments [("node", none), ("domain", some (.set []))] args with
    | some [.int n, .set d] => some (.X n d.toFinset)
    | _ => none
  else if cls = "Z" then
    match bindArguments [("node", none), ("domain", some (.set []))] args with
    | some [.int n, .set d] => some (.Z n d.toFinset)
    | _ => none
  else if cls = "S" then
    match bindArguments [("node", none), ("domain", some (.set []))] args with
    | some [.int n, .set d] => some (.S n d.toFinset)
    | _ => none
  else if cls = "T" then
    match bindArguments [] args with
    | some [] => some .T
    | _ => none
  else none

/-- The value of the expression of a command. -/
noncomputable def evalCommand : List RTok → Option (Command × List RTok)
  | .name cls :: .lpar :: l => (readArguments 4 l).bind fun r => (buildCommand cls r.1).map fun c => (c, r.2)
  | _ => none

/-- A list of commands after its opening bracket, at most as many as the number. -/
noncomputable def evalCommands : ℕ → List RTok → Option (List Command × List RTok)
  | _, .rbrack :: l => some ([], l)
  | 0, _ => none
  | n + 1, l =>
    match evalCommand l with
    | some (c, .rbrack :: l') => some ([c], l')
    | some (c, .comma :: l') => (evalCommands n l').map fun r => (c :: r.1, r.2)
    | _ => none

/-- The arguments of `Pattern`. -/
structure PatternArgs where
  inputs : Option (List ℕ)
  cmds : Option (List Command)
  outputs : Option (List ℕ)

/-- A list of nodes. -/
def readNodeList : List RTok → Option (List ℕ × List RTok)
  | .lbrack :: .rbrack :: l => some ([], l)
  | .lbrack :: l => readInts .rbrack l
  | _ => none

/-- One named argument of `Pattern`, added to those that were read. -/
noncomputable def readPatternArg (a : PatternArgs) : List RTok → Option (PatternArgs × List RTok)
  | .name s :: .eq :: l =>
    if s = "input_nodes" then (readNodeList l).map fun r => ({ a with inputs := some r.1 }, r.2)
    else if s = "output_nodes" then (readNodeList l).map fun r => ({ a with outputs := some r.1 }, r.2)
    else if s = "cmds" then
      match l with
      | .lbrack :: l' => (evalCommands l'.length l').map fun r => ({ a with cmds := some r.1 }, r.2)
      | _ => none
    else none
  | _ => none

/-- The arguments of `Pattern` up to the closing parenthesis, at most as many as the number. -/
noncomputable def readPatternArgs : ℕ → PatternArgs → List RTok → Option (PatternArgs × List RTok)
  | _, a, .rpar :: l => some (a, l)
  | 0, _, _ => none
  | n + 1, a, l =>
    match readPatternArg a l with
    | some (a', .rpar :: l') => some (a', l')
    | some (a', .comma :: l') => readPatternArgs n a' l'
    | _ => none

/-- The value of the expression of a pattern: the result of the constructor, or `none` if the text is not the expression of a pattern. -/
noncomputable def evalPattern : List RTok → Option (Except PyErr Pattern)
  | .name s :: .lpar :: l =>
    if s = "Pattern" then
      match readPatternArgs 3 ⟨none, none, none⟩ l with
      | some (a, []) => some (Pattern.construct a.inputs a.cmds a.outputs)
      | _ => none
    else none
  | _ => none

end Graphix
