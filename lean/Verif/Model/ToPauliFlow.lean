import Verif.Model.Flow
import Verif.Model.Linalg

/-!
# Model of `XZCorrections.to_pauliflow` (`graphix/flow/core.py`)

A linear equation over GF(2) is the list of its coefficients (one per variable) and its constant. The orders in which
Python iterates over sets are `ord` at the sites 20 (`nonfuture_others | {node}`), 21 (`future`) and 22
(`nonfuture_others`).
-/

namespace Graphix
namespace XZCorrections

/-- `flow/core.py:1583` `adjacency[g]`; the keys of the dictionary are the nodes of the graph. -/
def adjacencyAt (og : OpenGraph) (g : ℕ) : Except PyErr (Finset ℕ) :=
  if g ∈ og.nodes then .ok (og.nbrs g) else .error .keyError

/-- `flow/core.py:1584` `labels.get(g)`. -/
def labelGet (og : OpenGraph) (g : ℕ) : Option Label := (og.measurements.get? g).map Measurement.toPlaneOrAxis

/-- `flow/core.py:1495-1496` `const_at`, given `adjacency[g]`. -/
def constAt (adj fixed : Finset ℕ) : ZMod 2 := ((adj ∩ fixed).card % 2 : ℕ)

/-- `flow/core.py:1498-1499` `row_at`, given `adjacency[g]`. -/
def rowAt (adj : Finset ℕ) (vars : List ℕ) : List (ZMod 2) := vars.map fun v => if v ∈ adj then 1 else 0

/-- `flow/core.py:1530-1532, 1539-1541`: `row[var_index[g]] ^= 1` if `g` is a variable (the vars are distinct). -/
def rowAtY (adj : Finset ℕ) (vars : List ℕ) (g : ℕ) : List (ZMod 2) :=
  vars.map fun v => (if v ∈ adj then 1 else 0) + (if v = g then 1 else 0)

/-- `flow/core.py:1511-1513`: the equations of the future nodes. -/
def futureRows (og : OpenGraph) (vars : List ℕ) (fixed zCorr : Finset ℕ) :
    List ℕ → Except PyErr (List (List (ZMod 2) × ZMod 2))
  | [] => .ok []
  | g :: l => do
    let adj ← adjacencyAt og g
    let rest ← futureRows og vars fixed zCorr l
    return (rowAt adj vars, (if g ∈ zCorr then 1 else 0) + constAt adj fixed) :: rest

/-- `flow/core.py:1516-1534`: the equations of the other nodes that are not in the future. -/
def nonfutureRows (og : OpenGraph) (vars : List ℕ) (fixed : Finset ℕ) :
    List ℕ → Except PyErr (List (List (ZMod 2) × ZMod 2))
  | [] => .ok []
  | g :: l =>
    match labelGet og g with
    | none => .error .assertionError
    | some lab => do
      let adj ← adjacencyAt og g
      let rest ← nonfutureRows og vars fixed l
      if lab ≠ .axis .Y ∧ lab ≠ .axis .Z then return (rowAt adj vars, constAt adj fixed) :: rest
      else if lab = .axis .Y then return (rowAtY adj vars g, constAt adj fixed) :: rest
      else return rest

/-- `flow/core.py:1536-1548`: the equation of the node itself. -/
def nodeRows (og : OpenGraph) (vars : List ℕ) (fixed : Finset ℕ) (node : ℕ) (label : Label) :
    Except PyErr (List (List (ZMod 2) × ZMod 2)) := do
  let adj ← adjacencyAt og node
  if label = .axis .Y then return [(rowAtY adj vars node, 1 + constAt adj fixed)]
  else if label ≠ .axis .Z then
    return [(rowAt adj vars, (if label = .plane .YZ then 0 else 1) + constAt adj fixed)]
  else return []

/-- `flow/core.py:1550-1570`: Gaussian elimination of the augmented matrix, test of consistency and back substitution.
With no equation the function returns the fixed nodes (1551-1557), i.e. all the vars are 0. -/
def solveSystem (n : ℕ) (sys : List (List (ZMod 2) × ZMod 2)) : Option (ℕ → ZMod 2) :=
  if sys = [] then some fun _ => 0
  else
    let aug : GF2 := fun i j => if j < n then (sys.getD i ([], 0)).1.getD j 0 else (sys.getD i ([], 0)).2
    let red := GF2.elimination false sys.length n aug
    if (List.range sys.length).any fun r => !red.rowAny n r && red r n = 1 then none
    else GF2.solve sys.length n red fun i => red i n

/-- `flow/core.py:1572-1573`: the vars whose bit is 1. -/
def chosen (vars : List ℕ) (x : ℕ → ZMod 2) : Finset ℕ :=
  ((vars.zipIdx.filter fun vi => x vi.2 = 1).map Prod.fst).toFinset

/-- `flow/core.py:1488`: the anachronical candidates. -/
def candidates (og : OpenGraph) (ord : SetOrd) (node : ℕ) (future : Finset ℕ) : List ℕ :=
  (ord 20 node (insert node (og.nodes \ future))).filter fun a => a ∈ og.nodes \ og.inputs.toFinset ∧
    (labelGet og a = some (.axis .X) ∨ labelGet og a = some (.axis .Y))

/-- `flow/core.py:1481`. -/
def selfFixed (label : Label) : Bool := label = .plane .XZ || label = .plane .YZ || label = .axis .Z

/-- `flow/core.py:1462-1574` `_solve_pauli_correction_set`. -/
def solvePauliCorrectionSet (xz : XZCorrections) (ord : SetOrd) (node : ℕ) (future : Finset ℕ) :
    Except PyErr (Option (Finset ℕ)) := do
  let nonInputs := xz.og.nodes \ xz.og.inputs.toFinset
  let xCorr := (xz.x.get? node).getD ∅
  let zCorr := (xz.z.get? node).getD ∅
  let label ← xz.og.label node
  if selfFixed label = true ∧ node ∉ nonInputs then return none
  else
    let nonfutureOthers := (xz.og.nodes \ future) \ {node}
    let vars := candidates xz.og ord node future
    let fixed := if selfFixed label then insert node xCorr else xCorr
    let r1 ← futureRows xz.og vars fixed zCorr (ord 21 node future)
    let r2 ← nonfutureRows xz.og vars fixed (ord 22 node nonfutureOthers)
    let r3 ← nodeRows xz.og vars fixed node label
    return (solveSystem vars.length (r1 ++ (r2 ++ r3))).map fun x => fixed ∪ chosen vars x

/-- `flow/core.py:1587-1592` `future_of[node]` (the last layer that contains the node counts). -/
def futureOf (node : ℕ) : List (Finset ℕ) → Finset ℕ → Option (Finset ℕ) → Except PyErr (Finset ℕ)
  | [], _, none => .error .keyError
  | [], _, some s => .ok s
  | layer :: layers, acc, r => futureOf node layers (acc ∪ layer) (if node ∈ layer then some acc else r)

/-- `flow/core.py:1594-1601`: the loop over the measured nodes. -/
def reconstruct (xz : XZCorrections) (ord : SetOrd) : List ℕ → PyDict ℕ (Finset ℕ) → Except PyErr (PyDict ℕ (Finset ℕ))
  | [], d => .ok d
  | node :: l, d => do
    let future ← futureOf node xz.layers ∅ none
    match ← xz.solvePauliCorrectionSet ord node future with
    | none => .error .flowError
    | some s => reconstruct xz ord l (d.set node s)

/-- `flow/core.py:271-323` `to_pauliflow`. -/
def toPauliFlow (xz : XZCorrections) (ord : SetOrd) : Except PyErr Flow := do
  let corr ← xz.reconstruct ord xz.og.measurements.keys []
  return ⟨xz.og, corr, xz.layers⟩

end XZCorrections
end Graphix
