import Verif.Model.Pattern
import Verif.Model.PartialOrder
import Mathlib.Data.Finset.Fold
import Mathlib.Data.Finset.SymmDiff

/-!
# Model of `graphix/opengraph.py`: open graphs
-/

namespace Graphix

open scoped symmDiff

/-- `Plane | Axis`. -/
inductive Label
  | plane (p : Plane)
  | axis (a : Axis)
  deriving DecidableEq

/-- `measurements.py:309-310, 458-460`, `fundamentals.py:359-360` `to_plane_or_axis`. -/
def Measurement.toPlaneOrAxis : Measurement → Label
  | .bloch m => .plane m.plane
  | .pauli m => .axis m.axis

/-- `measurements.py:309-310` `to_plane`; a `PauliMeasurement` has no such method (`AttributeError`). -/
def Measurement.toPlane : Measurement → Except PyErr Plane
  | .bloch m => .ok m.plane
  | .pauli _ => .error .attributeError

/-- `opengraph.py:43-81` `class OpenGraph`. The networkx graph is given by the set of its nodes and by the list of its
edges, each undirected edge once, in the order of `graph.edges`. Open graphs whose measurements are only planes or
axes are covered by taking any angle and sign. -/
structure OpenGraph where
  nodes : Finset ℕ
  edges : List (ℕ × ℕ)
  inputs : List ℕ
  outputs : List ℕ
  measurements : PyDict ℕ Measurement
  cliffords : PyDict ℕ Clifford

namespace OpenGraph

/-- `opengraph.py:83-104` `__post_init__`. -/
def postInit (og : OpenGraph) : Except PyErr Unit :=
  let inputs := og.inputs.toFinset
  let outputs := og.outputs.toFinset
  let measured := og.measurements.keys.toFinset
  if ¬ measured ⊆ og.nodes then .error .openGraphError
  else if ¬ inputs ⊆ og.nodes then .error .openGraphError
  else if ¬ outputs ⊆ og.nodes then .error .openGraphError
  else if outputs ∩ measured ≠ ∅ then .error .openGraphError
  else if og.nodes \ outputs ≠ measured then .error .openGraphError
  else if inputs.card ≠ og.inputs.length then .error .openGraphError
  else if outputs.card ≠ og.outputs.length then .error .openGraphError
  else if ¬ og.cliffords.keys.toFinset ⊆ outputs then .error .openGraphError
  else .ok ()

/-- networkx `graph.neighbors(node)` for a node of the graph. -/
def nbrs (og : OpenGraph) (u : ℕ) : Finset ℕ :=
  (og.edges.filterMap fun e => if e.1 = u then some e.2 else if e.2 = u then some e.1 else none).toFinset

/-- `opengraph.py:339-355` `neighbors`: union over the given nodes; networkx raises for a node that is not in the graph. -/
def neighbors (og : OpenGraph) (s : Finset ℕ) : Except PyErr (Finset ℕ) :=
  if s ⊆ og.nodes then .ok (s.biUnion og.nbrs) else .error .networkXError

/-- `opengraph.py:357-373` `odd_neighbors`: the loop `odd ^= neighbors([node])` over a set (`^` is commutative and
associative, so the order does not matter). -/
def oddNeighbors (og : OpenGraph) (s : Finset ℕ) : Except PyErr (Finset ℕ) :=
  if s ⊆ og.nodes then .ok (s.fold (· ∆ ·) ∅ og.nbrs) else .error .networkXError

/-- `self.og.measurements[node].to_plane_or_axis()`. -/
def label (og : OpenGraph) (node : ℕ) : Except PyErr Label :=
  match og.measurements.get? node with
  | none => .error .keyError
  | some m => .ok m.toPlaneOrAxis

/-- `self.og.measurements[node].to_plane()`. -/
def plane (og : OpenGraph) (node : ℕ) : Except PyErr Plane :=
  match og.measurements.get? node with
  | none => .error .keyError
  | some m => m.toPlane

end OpenGraph
end Graphix
