import Verif.Model.PatternMap
import Verif.Model.Standardize

/-!
# Model of `standardize` on patterns with parameters: `graphix/optimization.py:39-222, 308-322`

The same functions as in `Model/Standardize.lean`, where the measurements carry angles that may be expressions.  The
accumulators that do not hold measurements are the fields of `StdBody` (whose list of measurements stays empty here);
the cases of the loop that do not look at measurements are those of `StdBody`.
-/

namespace Graphix

open scoped symmDiff

/-- `command.py:122-181` `class M`, with an angle that may be an expression. -/
structure PMCmd where
  node : ℕ
  measurement : PMeasurement
  sDomain : Finset ℕ
  tDomain : Finset ℕ

/-- `command.py:143-162` `M.clifford`. -/
noncomputable def PMCmd.clifford? (m : PMCmd) (c : Clifford) : Except PyErr PMCmd := do
  match c.commuteDomains? ⟨m.sDomain, m.tDomain⟩ with
  | none => .error .runtimeError
  | some d =>
    let measurement ← m.measurement.clifford? c
    return ⟨m.node, measurement, d.s, d.t⟩

/-- `optimization.py:69-87` `_StandardizedPattern`. -/
structure PStdBody where
  base : StdBody
  mList : List PMCmd

namespace PStdBody

/-- `optimization.py:187-204`, the `M` case. -/
noncomputable def measureCase (b : PStdBody) (cmd : PMCmd) : Except PyErr PStdBody := do
  let cmd ← match PyDict.get? b.base.cDict cmd.node with
    | some gate => cmd.clifford? gate
    | none => Except.ok cmd
  let t := ((PyDict.get? b.base.zDict cmd.node).getD ∅)
  let s := ((PyDict.get? b.base.xDict cmd.node).getD ∅)
  return {
    base := { b.base with
      cDict := PyDict.erase b.base.cDict cmd.node
      zDict := PyDict.erase b.base.zDict cmd.node
      xDict := PyDict.erase b.base.xDict cmd.node }
    mList := b.mList ++ [⟨cmd.node, cmd.measurement, cmd.sDomain ∆ s, cmd.tDomain ∆ t⟩] }

/-- One of the cases that do not look at measurements. -/
noncomputable def other (b : PStdBody) (c : Command) : Except PyErr PStdBody := do
  let base ← b.base.step c
  return { b with base := base }

/-- The body of the loop of `from_pattern` (`optimization.py:174-221`). -/
noncomputable def step (b : PStdBody) (cmd : PCommand) : Except PyErr PStdBody :=
  match cmd with
  | .M n m s t => b.measureCase ⟨n, m, s, t⟩
  | .N n st => b.other (.N n st)
  | .E u v => b.other (.E u v)
  | .C n c => b.other (.C n c)
  | .X n d => b.other (.X n d)
  | .Z n d => b.other (.Z n d)
  | .S n d => b.other (.S n d)
  | .T => b.other .T

/-- The loop of `from_pattern`. -/
noncomputable def run (b : PStdBody) : List PCommand → Except PyErr PStdBody
  | [] => .ok b
  | c :: l => do
    let b ← b.step c
    run b l

/-- The command list of `to_pattern` (`optimization.py:313-320`) for an enumeration of the edges. -/
def cmds (b : PStdBody) (edges : List (ℕ × ℕ)) : List PCommand :=
  b.base.nList.map (fun n => .N n.1 n.2) ++ edges.map (fun e => .E e.1 e.2) ++
  b.mList.map (fun m => .M m.node m.measurement m.sDomain m.tDomain) ++
  b.base.zDict.map (fun kv => .Z kv.1 kv.2) ++ b.base.xDict.map (fun kv => .X kv.1 kv.2) ++
  b.base.cDict.map (fun kv => .C kv.1 kv.2)

end PStdBody

/-- The skeleton of a pattern with parameters: `check_runnability` (`pattern.py:1633-1693`) does not look at
measurements, only at nodes and domains. -/
def PCommand.skeleton : PCommand → Command
  | M n _ s t => .M n (.pauli ⟨.X, .plus⟩) s t
  | N n st => .N n st
  | E a b => .E a b
  | C n c => .C n c
  | X n d => .X n d
  | Z n d => .Z n d
  | S n d => .S n d
  | T => .T

/-- `pattern.py:1633-1693` `check_runnability`. -/
def PPattern.checkRunnability (p : PPattern) : Except RunnabilityReason Unit :=
  Pattern.checkRunnability ⟨p.inputs, p.nNode, p.seq.map PCommand.skeleton, p.outputs⟩

/-- `optimization.py:39-66, 152-222, 308-322` `standardize`, for the enumeration `edges` of the set of edges:
`StandardizedPattern.from_pattern(pattern).to_pattern()`. -/
noncomputable def PPattern.standardize (p : PPattern) (edges : Finset (Sym2 ℕ) → List (ℕ × ℕ)) : Except PyErr PPattern :=
  match p.checkRunnability with
  | .error _ => .error .patternError
  | .ok _ => do
    let b ← PStdBody.run ⟨StdBody.init, []⟩ p.seq
    let es := edges b.base.eSet
    if es.any (fun e => e.1 = e.2) then .error .valueError
    else ((b.cmds es).foldl PPattern.add (PPattern.empty p.inputs)).reorderOutputNodes p.outputs

end Graphix
