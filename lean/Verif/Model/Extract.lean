import Verif.Model.CircExt
import Verif.Model.FindGpflow
import Verif.Model.Simulator

/-!
# Model of the circuit extraction: `graphix/circ_ext/extraction.py` (from flows) and `PauliFlow.extract_circuit`

For a `GFlow` and a `CausalFlow`, `node_measurement_label` raises on a `PauliMeasurement` and is `to_plane_or_axis` on the
other measurements, so the model is that of the three classes for flows whose label lookups succeed.
-/

namespace Graphix

open scoped symmDiff

namespace Flow

/-- `flow/core.py:937-942`: the tests of one node `node`, for the correction set `c` with odd neighbourhood `odd`; `false`:
`return False`. -/
def focusedAt (og : OpenGraph) (c odd : Finset ℕ) (node : ℕ) : Except PyErr Bool := do
  let l ← og.label node
  if node ∈ c ∧ ¬ (l = .plane .XY ∨ l = .axis .X ∨ l = .axis .Y) then return false
  if node ∈ odd ∧ ¬ (l = .plane .XZ ∨ l = .plane .YZ ∨ l = .axis .Y ∨ l = .axis .Z) then return false
  if l = .axis .Y ∧ node ∈ odd ∆ c then return false
  return true

/-- `flow/core.py:935-942`: the loop over `oc_set - {corrected_node}`. -/
def focusedNodes (og : OpenGraph) (c odd : Finset ℕ) : List ℕ → Except PyErr Bool
  | [] => .ok true
  | node :: l => do
    if ← focusedAt og c odd node then focusedNodes og c odd l else return false

/-- `flow/core.py:932-943`: the loop over the correction function. -/
def focusedLoop (og : OpenGraph) (ord : SetOrd) : PyDict ℕ (Finset ℕ) → Except PyErr Bool
  | [] => .ok true
  | (u, c) :: l => do
    let odd ← og.oddNeighbors c
    if ← focusedNodes og c odd (ord 20 u (og.measurements.keys.toFinset \ {u})) then focusedLoop og ord l else return false

/-- `flow/core.py:914-943` `PauliFlow.is_focused`. -/
def isFocused (f : Flow) (ord : SetOrd) : Except PyErr Bool := focusedLoop f.og ord f.corr

end Flow

namespace Extract

/-- `extraction.py:554-558`: the measurement of the node is a `PauliMeasurement` with a negative sign. -/
def isMinus (og : OpenGraph) (n : ℕ) : Bool :=
  match og.measurements.get? n with
  | some (.pauli m) => decide (m.sign = .minus)
  | _ => false

/-- `extraction.py:569-571`: the inner loop, for one axis. -/
def setAxes (idx : NodeIndex) (a : Axis) : List ℕ → PyDict ℕ Axis → Except PyErr (PyDict ℕ Axis)
  | [], d => .ok d
  | n :: l, d => do
    let q ← idx.index n
    setAxes idx a l (d.set q a)

/-- `extraction.py:511-573` `extraction_ps_from_corrected_node`. -/
def extractionPs (f : Flow) (ord : SetOrd) (node : ℕ) : Except PyErr PauliString := do
  let og := f.og
  let dim := og.outputs.length
  let c ← f.correctionSet node
  let odd ← og.oddNeighbors c
  let inter := c ∩ odd
  let xs := (c \ odd) ∩ og.outputs.toFinset
  let ys := inter ∩ og.outputs.toFinset
  let zs := (odd \ c) ∩ og.outputs.toFinset
  let neg := decide ((og.edges.filter fun e => decide (e.1 ∈ c ∧ e.2 ∈ c)).length % 2 = 1)
  let neg := Bool.xor neg (decide (inter.card / 2 % 2 = 1))
  let neg := (ord 21 node (c ∪ odd)).foldl (fun neg n => Bool.xor neg (isMinus og n)) neg
  let l ← og.label node
  let neg := Bool.xor neg (decide (l = .plane .YZ))
  let idx := NodeIndex.clear.extend og.outputs
  let axes ← setAxes idx .X (ord 22 node xs) []
  let axes ← setAxes idx .Y (ord 23 node ys) axes
  let axes ← setAxes idx .Z (ord 24 node zs) axes
  return ⟨dim, axes, Sign.minusIf neg⟩

/-- A dictionary comprehension `{node: f(node) for node in nodes}` over distinct nodes. -/
def dictOf {α : Type} (f : ℕ → Except PyErr α) : List ℕ → Except PyErr (PyDict ℕ α)
  | [] => .ok []
  | node :: l => do
    let x ← f node
    let r ← dictOf f l
    return (node, x) :: r

/-- `d[node]`. -/
def lookup {α : Type} (d : PyDict ℕ α) (node : ℕ) : Except PyErr α :=
  match d.get? node with
  | none => .error .keyError
  | some x => .ok x

/-- `flow/core.py:945-968` `PauliFlow.extraction_pauli_strings`. (A cached property: the strings are computed once.) -/
def pauliStrings (f : Flow) (ord : SetOrd) : Except PyErr (PyDict ℕ PauliString) := do
  if ← f.isFocused ord then dictOf (extractionPs f ord) f.corr.keys else throw .valueError

/-- `extraction.py:305-334` `PauliExponential.from_measured_node`. -/
noncomputable def pexpOf (f : Flow) (ord : SetOrd) (node : ℕ) : Except PyErr PauliExponential := do
  let ps ← lookup (← pauliStrings f ord) node
  let meas ← lookup f.og.measurements node
  return ⟨match meas with | .bloch m => m.angle / 2 | .pauli _ => 0, ps⟩

/-- `extraction.py:366-391` `PauliExponentialDAG.from_focused_flow`. -/
noncomputable def dagOf (f : Flow) (ord : SetOrd) : Except PyErr PauliExponentialDAG := do
  let pexps ← dictOf (pexpOf f ord) f.corr.keys
  return ⟨pexps, f.layers, f.og.outputs⟩

/-- `extraction.py:599-608`: the loop of `extend_input`, on the inputs from the last one; the edges, the map and the new
input nodes. networkx lists the new edges in an order that does not matter here. -/
def extendLoop : List ℕ → ℕ → List (ℕ × ℕ) → PyDict ℕ ℕ → List ℕ → List (ℕ × ℕ) × PyDict ℕ ℕ × List ℕ
  | [], _, es, d, new => (es, d, new)
  | i :: l, fresh, es, d, new => extendLoop l (fresh + 1) (es ++ [(i, fresh)]) (d.set i fresh) (new ++ [fresh])

/-- `extraction.py:576-612` `extend_input`. `max` raises `ValueError` on an empty graph; `replace` runs `__post_init__`. -/
def extendInput (og : OpenGraph) : Except PyErr (OpenGraph × PyDict ℕ ℕ) := do
  if og.nodes = ∅ then throw .valueError
  let fresh := og.nodes.sup id + 1
  let (es, d, new) := extendLoop og.inputs.reverse fresh og.edges [] []
  let og' : OpenGraph := { og with
    nodes := og.nodes ∪ new.toFinset
    edges := es
    inputs := new.reverse
    measurements := new.foldl (fun m n => m.set n (Measurement.pauli ⟨.X, .plus⟩)) og.measurements }
  og'.postInit
  return (og', d)

/-- A list comprehension. -/
def listOf {α β : Type} (f : α → Except PyErr β) : List α → Except PyErr (List β)
  | [] => .ok []
  | a :: l => do
    let x ← f a
    let r ← listOf f l
    return x :: r

/-- `extraction.py:615-648` `clifford_z_map_from_focused_flow`. -/
def zMapOf (f : Flow) (ord : SetOrd) : Except PyErr (List PauliString) :=
  listOf (fun node =>
    if node ∈ f.og.measurements.keys then do
      lookup (← pauliStrings f ord) node
    else do
      let q ← (NodeIndex.clear.extend f.og.outputs).index node
      return ⟨f.og.outputs.length, [(q, .Z)], .plus⟩) f.og.inputs

/-- `extraction.py:651-688` `clifford_x_map_from_focused_flow`. -/
def xMapOf (f : Flow) (ord : SetOrd) (mmo : MulOrd) : Except PyErr (List PauliString) := do
  let (og', anc) ← extendInput f.og
  let f' ← og'.toPauliflow ord mmo
  let d ← dictOf (extractionPs f' ord) og'.inputs
  listOf (fun i => do lookup d (← lookup anc i)) f.og.inputs

/-- `extraction.py:446-471` `CliffordMap.from_focused_flow`. -/
def cliffordMapOf (f : Flow) (ord : SetOrd) (mmo : MulOrd) : Except PyErr CliffordMap := do
  let z ← zMapOf f ord
  let x ← xMapOf f ord mmo
  return ⟨x, z, f.og.inputs, f.og.outputs⟩

end Extract

/-- `flow/core.py:970-997` `PauliFlow.extract_circuit`. -/
noncomputable def Flow.extractCircuit (f : Flow) (ord : SetOrd) (mmo : MulOrd) : Except PyErr ExtractionResult := do
  if f.og.cliffords ≠ [] then throw .notImplementedError
  let dag ← Extract.dagOf f ord
  let cm ← Extract.cliffordMapOf f ord mmo
  return ⟨dag, cm⟩

end Graphix
