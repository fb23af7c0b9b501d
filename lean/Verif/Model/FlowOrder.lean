import Verif.Model.Flow

/-!
# Model of `graphix/flow/core.py`: the partial order induced by corrections
-/

namespace Graphix

namespace FlowOrder

/-- `flow/core.py:1375-1380`: the pairs `(measured_node, corrected_node)` in the order of the loops over one of the two
dictionaries; `o` is `oset`. -/
def pairs (ord : SetOrd) (o : Finset ℕ) (d : PyDict ℕ (Finset ℕ)) : List (ℕ × ℕ) :=
  d.flatMap fun kv => if kv.1 ∉ o then (ord 9 kv.1 (kv.2 \ o)).map fun c => (kv.1, c) else []

/-- `flow/core.py:1380-1382`: the body of the loops. The first component is the `defaultdict` `dag`, the second one
`indegree_map`. -/
def addEdge (st : PyDict ℕ (Finset ℕ) × PyDict ℕ ℤ) (e : ℕ × ℕ) : PyDict ℕ (Finset ℕ) × PyDict ℕ ℤ :=
  let ch := (st.1.get? e.1).getD ∅
  if e.2 ∉ ch then (st.1.set e.1 (insert e.2 ch), st.2.set e.2 ((st.2.get? e.2).getD 0 + 1)) else st

end FlowOrder

open FlowOrder in
/-- `flow/core.py:1342-1405` `_corrections_to_partial_order_layers`. -/
def correctionsToPartialOrderLayers (og : OpenGraph) (ord : SetOrd) (x z : PyDict ℕ (Finset ℕ)) :
    Except PyErr (List (Finset ℕ)) := do
  let oset := og.outputs.toFinset
  let st := (pairs ord oset x ++ pairs ord oset z).foldl addEdge ([], [])
  let zeroIndegree := (og.nodes \ oset) \ st.2.keys.toFinset
  let generations ← computeTopologicalGenerations (fun n => some ((st.1.get? n).getD ∅)) (ord 10 0) st.2 zeroIndegree
  match generations with
  | none => .error .xzCorrectionsError
  | some [] => if oset ≠ ∅ then return [oset] else return []
  | some (g :: gs) =>
    let generations := g :: gs
    let ordered := generations.foldl (· ∪ ·) ∅
    if ¬ ordered ⊆ og.nodes then .error .xzCorrectionsError
    else
      let unordered := (og.nodes \ ordered) \ oset
      let generations := if unordered ≠ ∅ then generations.dropLast ++ [generations.getLastD ∅ ∪ unordered] else generations
      if oset ≠ ∅ then return oset :: generations.reverse else return generations.reverse

/-- `flow/core.py:102-147` `XZCorrections.from_measured_nodes_mapping`. -/
def XZCorrections.fromMeasuredNodesMapping (og : OpenGraph) (ord : SetOrd) (x z : PyDict ℕ (Finset ℕ)) :
    Except PyErr XZCorrections :=
  if ¬ (x.keys.toFinset ∪ z.keys.toFinset) ⊆ og.measurements.keys.toFinset then .error .xzCorrectionsError
  else do
    let layers ← correctionsToPartialOrderLayers og ord x z
    return ⟨og, x, z, layers⟩

end Graphix
