import Verif.Model.SpaceMin
import Verif.Model.StdOpenGraph

/-!
# Model of `Pattern.parallelize_pattern`: `graphix/pattern.py:581-588, 1152-1188, 1296-1305, 1343-1354`
-/

namespace Graphix

/-- The orders in which Python may enumerate sets of edges (`for u, v in self.e_set`) and neighbourhoods (`graph.neighbors`). -/
structure GraphOrd where
  edges : Finset (Sym2 ℕ) → List (ℕ × ℕ)
  nbr : Finset (Sym2 ℕ) → ℕ → List ℕ

/-- The enumerations are exact. -/
def GraphOrd.Valid (eo : GraphOrd) : Prop := ∀ E, StdPattern.Enumerates (eo.edges E) E ∧ NbrOk E (eo.nbr E)

namespace Pattern

/-- The measurement commands of a sequence, in order. -/
def mCommands (l : List Command) : List MCmd :=
  l.filterMap fun c => match c with
    | .M n m s t => some ⟨n, m, s, t⟩
    | _ => none

/-- `pattern.py:1180-1188` `measurement_commands`. -/
def measurementCommands (p : Pattern) : PyDict ℕ MCmd :=
  (mCommands p.seq).foldl (fun d m => PyDict.set d m.node m) []

/-- `pattern.py:1164-1178` `sort_measurement_commands`: `meas_dict[i]` may raise `KeyError`. -/
def sortMeasurementCommands (p : Pattern) (order : List ℕ) : Except PyErr (List MCmd) :=
  order.mapM fun n => match PyDict.get? p.measurementCommands n with
    | some m => .ok m
    | none => .error .keyError

/-- `pattern.py:1153-1162` `_measurement_order_depth`: the layers but the first one, last layer first. -/
noncomputable def measurementOrderDepth (p : Pattern) (ord : SetOrd) : Except PyErr (List ℕ) := do
  let sp ← StdPattern.fromPattern p
  let layers ← sp.partialOrderLayers ord
  return (layers.drop 1).reverse.flatMap (ord 20 0)

/-- `pattern.py:1343-1354` `_reorder_pattern`: only the command sequence is replaced. -/
noncomputable def reorderPattern (p : Pattern) (ms : List MCmd) (eo : GraphOrd) : Except PyErr Pattern := do
  let sp ← StdPattern.fromPattern p
  let new ← { sp with mList := ms }.toSpaceOptimalPattern (eo.nbr sp.eSet)
  return { p with seq := new.seq }

/-- `pattern.py:581-588` `standardize` (through `optimization.standardize`). -/
noncomputable def standardizeWith (p : Pattern) (eo : GraphOrd) : Except PyErr Pattern := do
  let sp ← StdPattern.fromPattern p
  sp.toPattern (eo.edges sp.eSet)

/-- `pattern.py:1296-1305` `parallelize_pattern`. -/
noncomputable def parallelize (p : Pattern) (ord : SetOrd) (eo : GraphOrd) : Except PyErr Pattern := do
  let p ← if p.isStandard false then .ok p else p.standardizeWith eo
  let order ← p.measurementOrderDepth ord
  let ms ← p.sortMeasurementCommands order
  p.reorderPattern ms eo

end Pattern
end Graphix
