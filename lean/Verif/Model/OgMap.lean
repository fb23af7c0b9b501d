import Verif.Model.PatternMap
import Verif.Model.ToPattern
import Verif.Model.Extract
import Verif.Model.CircExt
import Verif.Model.ParamCircuit

/-!
# Model of the measurement-wise transformations and of the comparisons of open graphs (`graphix/opengraph.py`)

Angles are real numbers (Python floats); an angle given as a Python integer, which `isclose` compares with `==`, is not
distinguished from the float.
-/

namespace Graphix

/-- `measurements.py:262-306`, `462-464` `isclose(other, rel_tol, abs_tol)`. -/
noncomputable def Measurement.iscloseTol (relTol absTol : ℝ) : Measurement → Measurement → Except PyErr Bool
  | .bloch a, .bloch b => do
    let c ← mathIsClose a.angle b.angle relTol absTol
    return c && decide (a.plane = b.plane)
  | .pauli a, .pauli b => .ok (decide (a = b))
  | _, _ => .ok false

/-- Python's `==` on dictionaries. -/
def PyDict.dictEq {α β : Type} [DecidableEq α] [DecidableEq β] (a b : PyDict α β) : Bool :=
  decide (a.length = b.length) && a.all fun kv => decide (b.get? kv.1 = some kv.2)

namespace OpenGraph

/-- `opengraph.py:161-190` `map`; `f` may raise. -/
def map (og : OpenGraph) (f : Measurement → Except PyErr Measurement) : Except PyErr OpenGraph := do
  let ms ← og.measurements.mapM (m := Except PyErr) fun kv => do
    let m ← f kv.2
    return (kv.1, m)
  let og' : OpenGraph := { og with measurements := ms }
  og'.postInit
  return og'

/-- `opengraph.py:192-206` `to_bloch`. -/
noncomputable def toBloch (og : OpenGraph) : Except PyErr OpenGraph := og.map fun m => .ok (.bloch m.toBloch)

/-- `opengraph.py:237-277` `infer_pauli_measurements`. -/
noncomputable def inferPauliMeasurements (og : OpenGraph) (relTol absTol : ℝ) : Except PyErr OpenGraph :=
  og.map (Measurement.toPauliOrBlochTol relTol absTol)

/-- `networkx/utils/misc.py` `graphs_equal(graph1, graph2)`: the same dictionary of neighbours and the same nodes (the code
sets no attributes on nodes and edges). -/
def graphsEqual (og other : OpenGraph) : Bool :=
  decide (og.nodes = other.nodes) && decide (∀ u ∈ og.nodes, og.nbrs u = other.nbrs u)

/-- `opengraph.py:310-337` `is_equal_structurally` (input and output nodes of the same Python type). -/
def isEqualStructurally (og other : OpenGraph) : Bool :=
  og.graphsEqual other && decide (og.inputs = other.inputs) && decide (og.outputs = other.outputs) &&
    og.cliffords.dictEq other.cliffords

/-- `opengraph.py:305-308`: `all(m.isclose(other.measurements[node], …) for node, m in self.measurements.items())`. -/
noncomputable def iscloseLoop (other : OpenGraph) (relTol absTol : ℝ) : List (ℕ × Measurement) → Except PyErr Bool
  | [] => .ok true
  | (node, m) :: l =>
    match other.measurements.get? node with
    | none => .error .keyError
    | some m' => do
      let c ← m.iscloseTol relTol absTol m'
      if c then iscloseLoop other relTol absTol l else return false

/-- `opengraph.py:279-308` `isclose`. -/
noncomputable def isclose (og other : OpenGraph) (relTol absTol : ℝ) : Except PyErr Bool :=
  if og.isEqualStructurally other then iscloseLoop other relTol absTol og.measurements else .ok false

/-- `opengraph.py:375-402` `to_causalflow`; `to_causalflow_or_none` (463-488) is `find_cflow`. -/
def toCausalflow (og : OpenGraph) (ord : SetOrd) : Except PyErr Flow := do
  match ← findCflow og ord with
  | some f => return f
  | none => throw .openGraphError

/-- `opengraph.py:576-651` `to_circuit()` with the default compilation passes. `ord` and `mmo` are the orders in which Python
enumerates sets and in which the parallel matrix products are evaluated, in the search of the flow (`ord₁`, `mmo₁`), in the
extraction (`ord₂`, `mmo₂`) and in the compilation (`ord₃`). -/
noncomputable def toCircuit (og : OpenGraph) (ord₁ : SetOrd) (mmo₁ : MulOrd) (ord₂ : SetOrd) (mmo₂ : MulOrd) (ord₃ : SetOrd) :
    Except PyErr Circuit := do
  let f ← og.toPauliflow ord₁ mmo₁
  let er ← f.extractCircuit ord₂ mmo₂
  erToCircuit er ord₃

end OpenGraph

/-- `flow/core.py:325-330` `XZCorrections.to_bloch`. -/
noncomputable def XZCorrections.toBloch (xz : XZCorrections) : Except PyErr XZCorrections := do
  let og ← xz.og.toBloch
  return ⟨og, xz.x, xz.z, xz.layers⟩

/-! ## Parametrised open graphs -/

namespace POpenGraph

/-- `opengraph.py:161-190` `map` on an open graph whose measurements may have parameters. -/
def map (og : POpenGraph) (f : PMeasurement → Except PyErr PMeasurement) : Except PyErr POpenGraph := do
  let ms ← og.measurements.mapM (m := Except PyErr) fun kv => do
    let m ← f kv.2
    return (kv.1, m)
  let og' : POpenGraph := { og with measurements := ms }
  og'.skeleton.postInit
  return og'

/-- `opengraph.py:751-795` `with_parameter`. -/
noncomputable def withParameter (og : POpenGraph) (x : ℕ) (e : Expr) : Except PyErr POpenGraph :=
  og.map (PMeasurement.withParameter x e)

/-- `opengraph.py:797-835` `with_parameters`. -/
noncomputable def withParameters (og : POpenGraph) (assignment : ℕ → Option Expr) : Except PyErr POpenGraph :=
  og.map (PMeasurement.withParameters assignment)

end POpenGraph

/-- `flow/core.py:77-100` `XZCorrections` and `612-634` `PauliFlow` on an open graph with parameters: the open graph and what
does not depend on it. -/
structure POnGraph (α : Type) where
  og : POpenGraph
  rest : α

namespace POnGraph

/-- `flow/core.py:522-545` `XZCorrections.with_parameter`, `866-889` `PauliFlow.with_parameter` (by `dataclasses.replace`): only
the open graph changes. -/
noncomputable def withParameter {α : Type} (f : POnGraph α) (x : ℕ) (e : Expr) : Except PyErr (POnGraph α) := do
  let og ← f.og.withParameter x e
  return { f with og := og }

/-- `flow/core.py:546-568`, `891-912` `with_parameters`. -/
noncomputable def withParameters {α : Type} (f : POnGraph α) (assignment : ℕ → Option Expr) : Except PyErr (POnGraph α) := do
  let og ← f.og.withParameters assignment
  return { f with og := og }

end POnGraph
end Graphix
