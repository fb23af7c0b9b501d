import Verif.Model.Parallelize
import Verif.Model.Mc
import Verif.Model.PatternMap

/-!
# Model of the views of a pattern (`graphix/pattern.py`): `clifford_commands`, `connected_nodes`, `correction_commands`,
`reorder_input_nodes`, `==`, and of `StandardizedPattern.map`
-/

namespace Graphix
namespace Pattern

/-- `pattern.py:1239-1246` `clifford_commands`: a dict comprehension, so that the last command on a node counts. -/
def cliffordCommands (p : Pattern) : PyDict ℕ Clifford :=
  p.seq.foldl (fun d c => match c with | .C n g => d.set n g | _ => d) []

/-- `pattern.py:1275-1283`: the loop from the first `E` command; the list is `self.__seq[ind:]`, and `self.__seq[ind]` raises `IndexError` at its
end. -/
def connectedLoop (node : ℕ) (prepared : Finset ℕ) : List Command → Except PyErr (List ℕ)
  | [] => .error .indexError
  | .E a b :: l => do
    let rest ← connectedLoop node prepared l
    return if a = node then (if b ∉ prepared then b :: rest else rest) else if b = node ∧ a ∉ prepared then a :: rest else rest
  | _ :: _ => .ok []

/-- `pattern.py:581-588` `standardize`: only the sequence of commands is replaced. -/
noncomputable def standardizeInPlace (p : Pattern) (eo : GraphOrd) : Except PyErr Pattern := do
  let q ← p.standardizeWith eo
  return { p with seq := q.seq }

/-- `pattern.py:1248-1284` `connected_nodes`: the pattern after the call (it is standardized in place) and the list. `prepared=None` is `∅`. -/
noncomputable def connectedNodes (p : Pattern) (node : ℕ) (prepared : Finset ℕ) (eo : GraphOrd) : Except PyErr (Pattern × List ℕ) := do
  let p ← (if p.isStandard false then .ok p else p.standardizeInPlace eo : Except PyErr Pattern)
  match findOp .E p.seq false 0 with
  | none => return (p, [])
  | some ind => do
    let l ← connectedLoop node prepared (p.seq.drop ind)
    return (p, l)

/-- `pattern.py:1286-1294` `correction_commands`. -/
def correctionCommands (p : Pattern) : Except PyErr (List Command) :=
  if p.isStandard false then .ok (p.seq.filter fun c => kindOf c = .X || kindOf c = .Z) else .error .assertionError

/-- `pattern.py:427-437` `reorder_input_nodes`. -/
def reorderInputNodes (p : Pattern) (inputs : List ℕ) : Except PyErr Pattern := do
  assertPermutation p.inputs inputs
  return { p with inputs := inputs }

/-- `pattern.py:454-462` `__eq__`, for two patterns: the numbers of nodes are not compared. -/
noncomputable def pyEq (p q : Pattern) : Bool := by
  classical exact decide (p.seq = q.seq) && decide (p.inputs = q.inputs) && decide (p.outputs = q.outputs)

end Pattern

/-- `command.py:164-177` `M.map`: the measurement is replaced. -/
def MCmd.map (f : Measurement → Measurement) (m : MCmd) : MCmd := { m with measurement := f m.measurement }

/-- `optimization.py:452-475` `StandardizedPattern.map`. -/
def StdPattern.map (sp : StdPattern) (f : Measurement → Measurement) : StdPattern := { sp with mList := sp.mList.map (MCmd.map f) }

/-- `optimization.py:477-479` `StandardizedPattern.to_bloch`. -/
noncomputable def StdPattern.toBloch (sp : StdPattern) : StdPattern := sp.map fun m => .bloch m.toBloch

/-- `pattern.py:2099-2107`: the loop of `_reverse_mapping`. -/
def reverseMapping (m : PyDict ℕ ℕ) : PyDict ℕ (List ℕ) :=
  m.foldl (fun r kv => match r.get? kv.2 with
    | some l => r.set kv.2 (l ++ [kv.1])
    | none => r.set kv.2 [kv.1]) []

/-- `pattern.py:2110-2132` `_duplicates_in_mapping`. -/
def duplicatesInMapping (m : PyDict ℕ ℕ) : PyDict ℕ (List ℕ) := (reverseMapping m).filter fun kv => decide (1 < kv.2.length)

end Graphix
