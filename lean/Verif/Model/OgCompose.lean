import Verif.Model.OpenGraph
import Mathlib.Data.Finset.Lattice.Fold

/-!
# Model of `OpenGraph.compose` (`graphix/opengraph.py`)
-/

namespace Graphix

open Classical in
/-- `measurements.py:263-306, 463-464` `isclose` with the default tolerances: `math.isclose(a, b, rel_tol=1e-9, abs_tol=0)` is
`|a - b| <= max(1e-9 * max(|a|, |b|), 0)`. Angles are exact reals; for angles given as Python integers the code compares with
`==`, which is not distinguished here. -/
noncomputable def Measurement.isclose : Measurement → Measurement → Bool
  | .bloch a, .bloch b =>
    decide (|a.angle - b.angle| ≤ max (1 / 10 ^ 9 * max |a.angle| |b.angle|) 0) && decide (a.plane = b.plane)
  | .pauli a, .pauli b => decide (a = b)
  | _, _ => false

namespace OpenGraph

/-- `opengraph.py:698-712`: body of the loop over the mapping. The pair holds `measurements` and `measurements_other`. -/
noncomputable def composeStep (self other : OpenGraph) (acc : PyDict ℕ Measurement × PyDict ℕ Measurement) (vu : ℕ × ℕ) :
    Except PyErr (PyDict ℕ Measurement × PyDict ℕ Measurement) :=
  let vm := other.measurements.get? vu.1
  let um := self.measurements.get? vu.2
  let clash := match vm, um with
    | some a, some b => !a.isclose b
    | _, _ => false
  if clash then .error .openGraphError
  else
    let ms := match um, other.cliffords.get? vu.1 with
      | some b, some vc => acc.1.set vu.2 (b.clifford vc)
      | _, _ => acc.1
    let mo := match vm, self.cliffords.get? vu.2 with
      | some a, some uc => acc.2.set vu.1 (a.clifford uc)
      | _, _ => acc.2
    .ok (ms, mo)

/-- `mapping_complete[node]`. -/
def look (d : PyDict ℕ ℕ) (n : ℕ) : Except PyErr ℕ :=
  match d.get? n with
  | none => .error .keyError
  | some u => .ok u

/-- `opengraph.py:727-732` `merge_ports`. -/
def mergePorts (d : PyDict ℕ ℕ) (merged : Finset ℕ) (p1 p2 : List ℕ) : Except PyErr (List ℕ) := do
  let p2m ← p2.mapM (look d)
  let part1 := p1.filter fun n => n ∉ merged ∨ n ∈ p2m
  let part2 := p2m.filter fun n => n ∉ merged
  pure (part1 ++ part2)

/-- `opengraph.py:742-747`: body of the loop over `other.output_cliffords`. -/
def composeCliffords (d : PyDict ℕ ℕ) (oset : List ℕ) (acc : PyDict ℕ Clifford) (nc : ℕ × Clifford) :
    Except PyErr (PyDict ℕ Clifford) := do
  let w ← look d nc.1
  if w ∈ oset then pure (acc.set w (nc.2.mul ((acc.get? w).getD .I))) else pure acc

/-- `opengraph.py:653-749` `compose`. `nx.relabel_nodes` renames the end points of every edge; `nx.compose` takes the union of
the nodes and of the edges: an edge of `other` that `self` has already is not repeated. The order in which networkx lists the
edges of the result (it depends on the insertion order of the nodes) is not modelled: those of `self` come first here. `max` of
an empty sequence raises `ValueError`. -/
noncomputable def compose (self other : OpenGraph) (mapping : PyDict ℕ ℕ) : Except PyErr (OpenGraph × PyDict ℕ ℕ) := do
  let values := mapping.map Prod.snd
  if ¬ mapping.keys.toFinset ⊆ other.nodes then throw .valueError
  if mapping.length ≠ values.toFinset.card then throw .valueError
  let (measurements, measurementsOther) ← mapping.foldlM (composeStep self other) (self.measurements, other.measurements)
  if self.nodes ∪ values.toFinset = ∅ then throw .valueError
  let shift := (self.nodes ∪ values.toFinset).sup id + 1
  let sequential := ((other.nodes \ mapping.keys.toFinset).sort (· ≤ ·)).zipIdx shift
  let complete : PyDict ℕ ℕ := mapping ++ sequential
  let edges2 ← other.edges.mapM fun e => do
    let a ← look complete e.1
    let b ← look complete e.2
    pure (a, b)
  let nodes2 := (complete.map Prod.snd).toFinset
  let edges := self.edges ++ edges2.filter fun e => e ∉ self.edges ∧ (e.2, e.1) ∉ self.edges
  let merged := nodes2 ∩ self.nodes
  let inputs ← mergePorts complete merged self.inputs other.inputs
  let outputs ← mergePorts complete merged self.outputs other.outputs
  let shifted ← measurementsOther.mapM fun im => do
    let w ← look complete im.1
    pure (w, im.2)
  let measurements := shifted.foldl (fun (d : PyDict ℕ Measurement) im => d.set im.1 im.2) measurements
  let cliffords0 : PyDict ℕ Clifford := self.cliffords.filter fun nc => nc.1 ∈ outputs
  let cliffords ← other.cliffords.foldlM (composeCliffords complete outputs) cliffords0
  let og : OpenGraph := ⟨self.nodes ∪ nodes2, edges, inputs, outputs, measurements, cliffords⟩
  og.postInit
  pure (og, complete)

end OpenGraph
end Graphix
