import Verif.Model.OpenGraph

/-!
# Model of `graphix/flow/core.py`: flows and XZ-corrections

`ord site key s` is the order in which Python iterates over the set `s` at a given place of the program (`site`) for
a given `key`; the theorems quantify over it.
-/

namespace Graphix

open scoped symmDiff

/-- Iteration orders of Python sets. -/
abbrev SetOrd := ℕ → ℕ → Finset ℕ → List ℕ

/-- `flow/core.py:77-100` `class XZCorrections`. -/
structure XZCorrections where
  og : OpenGraph
  x : PyDict ℕ (Finset ℕ)
  z : PyDict ℕ (Finset ℕ)
  layers : List (Finset ℕ)

/-- `flow/core.py:571-598` `class PauliFlow`, `999` `class GFlow`, `1179` `class CausalFlow` (same fields). -/
structure Flow where
  og : OpenGraph
  corr : PyDict ℕ (Finset ℕ)
  layers : List (Finset ℕ)

namespace OpenGraph

/-- `self.partial_order_layers[shift:]` with `shift = 1 if self.og.output_nodes else 0`. -/
def measuredLayers (og : OpenGraph) (layers : List (Finset ℕ)) : List (Finset ℕ) :=
  if og.outputs ≠ [] then layers.drop 1 else layers

end OpenGraph

namespace XZCorrections

/-- `flow/core.py:341-352` `generate_total_measurement_order`. -/
def generateTotalMeasurementOrder (xz : XZCorrections) (ord : SetOrd) : Except PyErr (List ℕ) :=
  let totalOrder := (xz.og.measuredLayers xz.layers).reverse.flatMap (ord 0 0)
  if totalOrder.toFinset ≠ xz.og.nodes \ xz.og.outputs.toFinset then .error .assertionError
  else .ok totalOrder

/-- `flow/core.py:399-406`: for each node, `while node not in layer: i += 1 …`; the list holds `layer` and the next
layers. -/
def isCompatibleLoop : List ℕ → List (Finset ℕ) → Bool
  | [], _ => true
  | _ :: _, [] => false
  | node :: nodes, layer :: layers =>
    if node ∈ layer then isCompatibleLoop nodes (layer :: layers)
    else isCompatibleLoop (node :: nodes) layers
termination_by a b => (a.length, b.length)

/-- `flow/core.py:369-406` `is_compatible`. -/
def isCompatible (xz : XZCorrections) (order : List ℕ) : Except PyErr Bool :=
  let nonOutputs := xz.og.nodes \ xz.og.outputs.toFinset
  if order.toFinset ≠ nonOutputs then .ok false
  else if order.length ≠ nonOutputs.card then .ok false
  else
    match (xz.og.measuredLayers xz.layers).reverse with
    | [] => .error .indexError
    | layer :: layers => .ok (isCompatibleLoop order (layer :: layers))

/-- `self.z_corrections.get(measured_node, [])`, iterated. -/
def corrected (ord : Finset ℕ → List ℕ) (d : PyDict ℕ (Finset ℕ)) (node : ℕ) : List ℕ :=
  match d.get? node with
  | none => []
  | some s => ord s

/-- `flow/core.py:195-203`: the loop over the measurements. -/
def measureCmds (xz : XZCorrections) (ord : SetOrd) : List ℕ → Except PyErr (List Command)
  | [] => .ok []
  | node :: order => do
    match xz.og.measurements.get? node with
    | none => .error .keyError
    | some m => do
      let rest ← measureCmds xz ord order
      return Command.M node m ∅ ∅ :: (((corrected (ord 2 node) xz.z node).map fun k => Command.Z k {node}) ++
        (((corrected (ord 3 node) xz.x node).map fun k => Command.X k {node}) ++ rest))

/-- `flow/core.py:187-209`: the pattern for a given total order. -/
noncomputable def buildPattern (xz : XZCorrections) (ord : SetOrd) (order : List ℕ) : Except PyErr Pattern := do
  let measures ← xz.measureCmds ord order
  let cmds := (ord 1 0 (xz.og.nodes \ xz.og.inputs.toFinset)).map (Command.N · PlanarState.plus) ++
    (xz.og.edges.map (fun e => Command.E e.1 e.2) ++ (measures ++ xz.og.cliffords.map (fun kv => Command.C kv.1 kv.2)))
  ((Pattern.empty xz.og.inputs).extend cmds).reorderOutputNodes xz.og.outputs

/-- `flow/core.py:149-209` `to_pattern`. -/
noncomputable def toPattern (xz : XZCorrections) (ord : SetOrd) (order : Option (List ℕ)) : Except PyErr Pattern :=
  match order with
  | none => do
    let order ← xz.generateTotalMeasurementOrder ord
    xz.buildPattern ord order
  | some order => do
    let c ← xz.isCompatible order
    if c then xz.buildPattern ord order else .error .xzCorrectionsError

/-- `flow/core.py:459-470`: the checks of one node. -/
def checkNode (xz : XZCorrections) (past : Finset ℕ) (node : ℕ) : Except PyErr Unit :=
  if ((xz.x.get? node).getD ∅) ∩ past ≠ ∅ then .error .xzCorrectionsError
  else if ((xz.z.get? node).getD ∅) ∩ past ≠ ∅ then .error .xzCorrectionsError
  else .ok ()

/-- The loop over the nodes of a layer. -/
def checkNodes (xz : XZCorrections) (past : Finset ℕ) : List ℕ → Except PyErr Unit
  | [] => .ok ()
  | n :: l => do
    xz.checkNode past n
    checkNodes xz past l

/-- `flow/core.py:453-472`: the loop over the measured layers; returns `past_and_present_nodes`. -/
def checkLayers (xz : XZCorrections) (ord : SetOrd) : List (Finset ℕ) → Finset ℕ → Except PyErr (Finset ℕ)
  | [], past => .ok past
  | layer :: layers, past =>
    if ¬ layer ⊆ xz.og.measurements.keys.toFinset ∨ layer = ∅ ∨ layer ∩ past ≠ ∅ then .error .xzCorrectionsError
    else do
      xz.checkNodes (past ∪ layer) (ord 4 0 layer)
      checkLayers xz ord layers (past ∪ layer)

/-- `flow/core.py:408-475` `XZCorrections.check_well_formed`. (`PartialOrderError` is both a `FlowError` and an
`XZCorrectionsError`.) -/
def checkWellFormed (xz : XZCorrections) (ord : SetOrd) : Except PyErr Unit :=
  match xz.layers with
  | [] => if xz.og.nodes = ∅ ∧ xz.x = [] ∧ xz.z = [] then .ok () else .error .xzCorrectionsError
  | first :: _ =>
    let oSet := xz.og.outputs.toFinset
    if ¬ (xz.x.keys.toFinset ∪ xz.z.keys.toFinset) ⊆ xz.og.measurements.keys.toFinset then .error .xzCorrectionsError
    else if oSet ≠ ∅ ∧ first ≠ oSet then .error .xzCorrectionsError
    else do
      let past ← xz.checkLayers ord (xz.og.measuredLayers xz.layers).reverse ∅
      if oSet ∪ past ≠ xz.og.nodes then .error .xzCorrectionsError else .ok ()

end XZCorrections

namespace Flow

/-- `flow/core.py:1408-1413` `_check_correction_function_domain`. -/
def domainOk (f : Flow) : Bool := decide (f.corr.keys.toFinset = f.og.nodes \ f.og.outputs.toFinset)

/-- `flow/core.py:1416-1422` `_check_correction_function_image`. -/
def imageOk (f : Flow) : Bool :=
  decide (((f.corr.map Prod.snd).foldl (· ∪ ·) ∅) ⊆ f.og.nodes \ f.og.inputs.toFinset)

/-- `flow/core.py:1425-1459` `_check_flow_general_properties`. -/
def checkGeneral (f : Flow) : Except PyErr Unit :=
  if ¬ f.domainOk then .error .flowError
  else if ¬ f.imageOk then .error .flowError
  else
    match f.layers with
    | [] => if f.og.nodes ≠ ∅ then .error .flowError else .ok ()
    | first :: _ =>
      let oSet := f.og.outputs.toFinset
      if oSet ≠ ∅ ∧ first ≠ oSet then .error .flowError else .ok ()

/-- A loop `for i in s: if self.og.measurements[i].to_plane_or_axis() not in …: raise`. -/
def checkLabels (og : OpenGraph) (allowed : Label → Bool) : List ℕ → Except PyErr Unit
  | [] => .ok ()
  | i :: l => do
    let lab ← og.label i
    if allowed lab then checkLabels og allowed l else .error .flowError

/-- `self.correction_function[node]`. -/
def correctionSet (f : Flow) (node : ℕ) : Except PyErr (Finset ℕ) :=
  match f.corr.get? node with
  | none => .error .keyError
  | some s => .ok s

/-- `flow/core.py:729-731`: the nodes of the layer measured in Y. -/
def yNodes (og : OpenGraph) : List ℕ → Except PyErr (Finset ℕ)
  | [] => .ok ∅
  | n :: l => do
    let lab ← og.label n
    let rest ← yNodes og l
    return if lab = .axis .Y then insert n rest else rest

/-- The proposition P4-P9 for a label (`flow/core.py:767-797`); `c`, `o`: whether the node is in its correction set
and in its odd neighbourhood. -/
def labelOk (lab : Label) (c o : Bool) : Bool :=
  match lab with
  | .plane .XY => !c && o
  | .plane .XZ => c && o
  | .plane .YZ => c && !o
  | .axis .X => o
  | .axis .Z => c
  | .axis .Y => c != o

/-- `flow/core.py:733-799`: the checks of one node of a Pauli flow. -/
def checkNodePauli (f : Flow) (ord : SetOrd) (past pastY : Finset ℕ) (node : ℕ) : Except PyErr Unit := do
  let correctionSet ← f.correctionSet node
  let meas ← f.og.label node
  checkLabels f.og (fun l => l = .axis .X || l = .axis .Y) (ord 5 node ((correctionSet \ {node}) ∩ past))
  let odd ← f.og.oddNeighbors correctionSet
  checkLabels f.og (fun l => l = .axis .Y || l = .axis .Z) (ord 6 node ((odd \ {node}) ∩ past))
  let closedOdd := (odd ∪ correctionSet) \ (odd ∩ correctionSet)
  if (pastY \ {node}) ∩ closedOdd ≠ ∅ then throw .flowError
  if ¬ labelOk meas (decide (node ∈ correctionSet)) (decide (node ∈ odd)) then throw .flowError

/-- The loop over the nodes of a layer. -/
def checkNodesPauli (f : Flow) (ord : SetOrd) (past pastY : Finset ℕ) : List ℕ → Except PyErr Unit
  | [] => .ok ()
  | n :: l => do
    f.checkNodePauli ord past pastY n
    checkNodesPauli f ord past pastY l

/-- `flow/core.py:724-801`: the loop over the measured layers. -/
def checkLayersPauli (f : Flow) (ord : SetOrd) : List (Finset ℕ) → Finset ℕ → Finset ℕ → Except PyErr (Finset ℕ)
  | [], past, _ => .ok past
  | layer :: layers, past, pastY =>
    if ¬ layer ⊆ f.og.measurements.keys.toFinset ∨ layer = ∅ ∨ layer ∩ past ≠ ∅ then .error .flowError
    else do
      let ys ← yNodes f.og (ord 7 0 layer)
      f.checkNodesPauli ord (past ∪ layer) (pastY ∪ ys) (ord 4 0 layer)
      checkLayersPauli f ord layers (past ∪ layer) (pastY ∪ ys)

/-- `flow/core.py:679-804` `PauliFlow.check_well_formed`. -/
def checkPauli (f : Flow) (ord : SetOrd) : Except PyErr Unit := do
  f.checkGeneral
  let past ← f.checkLayersPauli ord (f.og.measuredLayers f.layers).reverse ∅ ∅
  if f.og.outputs.toFinset ∪ past ≠ f.og.nodes then throw .flowError

/-- `flow/core.py:1116-1155`: the checks of one node of a gflow. -/
def checkNodeG (f : Flow) (past : Finset ℕ) (node : ℕ) : Except PyErr Unit := do
  let correctionSet ← f.correctionSet node
  if (correctionSet \ {node}) ∩ past ≠ ∅ then throw .flowError
  let odd ← f.og.oddNeighbors correctionSet
  if (odd \ {node}) ∩ past ≠ ∅ then throw .flowError
  let plane ← f.og.plane node
  if ¬ labelOk (.plane plane) (decide (node ∈ correctionSet)) (decide (node ∈ odd)) then throw .flowError

/-- The loop over the nodes of a layer. -/
def checkNodesG (f : Flow) (past : Finset ℕ) : List ℕ → Except PyErr Unit
  | [] => .ok ()
  | n :: l => do
    f.checkNodeG past n
    checkNodesG f past l

/-- `flow/core.py:1109-1157`: the loop over the measured layers. -/
def checkLayersG (f : Flow) (ord : SetOrd) : List (Finset ℕ) → Finset ℕ → Except PyErr (Finset ℕ)
  | [], past => .ok past
  | layer :: layers, past =>
    if ¬ layer ⊆ f.og.measurements.keys.toFinset ∨ layer = ∅ ∨ layer ∩ past ≠ ∅ then .error .flowError
    else do
      f.checkNodesG (past ∪ layer) (ord 4 0 layer)
      checkLayersG f ord layers (past ∪ layer)

/-- `flow/core.py:1071-1160` `GFlow.check_well_formed`. -/
def checkG (f : Flow) (ord : SetOrd) : Except PyErr Unit := do
  f.checkGeneral
  let past ← f.checkLayersG ord (f.og.measuredLayers f.layers).reverse ∅
  if f.og.outputs.toFinset ∪ past ≠ f.og.nodes then throw .flowError

/-- `flow/core.py:1274-1303`: the checks of one node of a causal flow. -/
def checkNodeC (f : Flow) (past : Finset ℕ) (node : ℕ) : Except PyErr Unit := do
  let correctionSet ← f.correctionSet node
  if correctionSet.card ≠ 1 then throw .flowError
  let plane ← f.og.plane node
  if plane ≠ .XY then throw .flowError
  let neighbors ← f.og.neighbors correctionSet
  if node ∉ neighbors then throw .flowError
  if correctionSet ∩ past ≠ ∅ then throw .flowError
  if (neighbors \ {node}) ∩ past ≠ ∅ then throw .flowError

/-- The loop over the nodes of a layer. -/
def checkNodesC (f : Flow) (past : Finset ℕ) : List ℕ → Except PyErr Unit
  | [] => .ok ()
  | n :: l => do
    f.checkNodeC past n
    checkNodesC f past l

/-- `flow/core.py:1267-1305`: the loop over the measured layers. -/
def checkLayersC (f : Flow) (ord : SetOrd) : List (Finset ℕ) → Finset ℕ → Except PyErr (Finset ℕ)
  | [], past => .ok past
  | layer :: layers, past =>
    if ¬ layer ⊆ f.og.measurements.keys.toFinset ∨ layer = ∅ ∨ layer ∩ past ≠ ∅ then .error .flowError
    else do
      f.checkNodesC (past ∪ layer) (ord 4 0 layer)
      checkLayersC f ord layers (past ∪ layer)

/-- `flow/core.py:1228-1308` `CausalFlow.check_well_formed`. -/
def checkC (f : Flow) (ord : SetOrd) : Except PyErr Unit := do
  f.checkGeneral
  let past ← f.checkLayersC ord (f.og.measuredLayers f.layers).reverse ∅
  if f.og.outputs.toFinset ∪ past ≠ f.og.nodes then throw .flowError

/-- `if nodes := …: d[k] = nodes`. -/
def setIfNonempty (d : PyDict ℕ (Finset ℕ)) (k : ℕ) (s : Finset ℕ) : PyDict ℕ (Finset ℕ) :=
  if s ≠ ∅ then d.set k s else d

/-- `flow/core.py:651-658`: the loop over the nodes of a layer. -/
def pauliCorrections (f : Flow) (future : Finset ℕ) : List ℕ → PyDict ℕ (Finset ℕ) × PyDict ℕ (Finset ℕ) →
    Except PyErr (PyDict ℕ (Finset ℕ) × PyDict ℕ (Finset ℕ))
  | [], d => .ok d
  | n :: l, d => do
    let correcting := (f.corr.get? n).getD ∅
    let odd ← f.og.oddNeighbors correcting
    pauliCorrections f future l (setIfNonempty d.1 n (correcting ∩ future), setIfNonempty d.2 n (odd ∩ future))

/-- `flow/core.py:650-660`: the loop over the layers. -/
def pauliCorrectionsLayers (f : Flow) (ord : SetOrd) : List (Finset ℕ) → Finset ℕ →
    PyDict ℕ (Finset ℕ) × PyDict ℕ (Finset ℕ) → Except PyErr (PyDict ℕ (Finset ℕ) × PyDict ℕ (Finset ℕ))
  | [], _, d => .ok d
  | layer :: layers, future, d => do
    let d ← f.pauliCorrections future (ord 8 0 layer) d
    pauliCorrectionsLayers f ord layers (future ∪ layer) d

/-- `flow/core.py:631-662` `PauliFlow.to_xzcorrections`. -/
def toXZPauli (f : Flow) (ord : SetOrd) : Except PyErr XZCorrections := do
  let d ← f.pauliCorrectionsLayers ord f.layers ∅ ([], [])
  return ⟨f.og, d.1, d.2, f.layers⟩

/-- `flow/core.py:1062-1067`: the loop over the items of the correction function. -/
def gCorrections (og : OpenGraph) : PyDict ℕ (Finset ℕ) → PyDict ℕ (Finset ℕ) × PyDict ℕ (Finset ℕ) →
    Except PyErr (PyDict ℕ (Finset ℕ) × PyDict ℕ (Finset ℕ))
  | [], d => .ok d
  | (n, correcting) :: l, d => do
    let odd ← og.oddNeighbors correcting
    gCorrections og l (setIfNonempty d.1 n (correcting \ {n}), setIfNonempty d.2 n (odd \ {n}))

/-- `flow/core.py:1042-1069` `GFlow.to_xzcorrections`. -/
def toXZG (f : Flow) : Except PyErr XZCorrections := do
  let d ← gCorrections f.og f.corr ([], [])
  return ⟨f.og, d.1, d.2, f.layers⟩

/-- `flow/core.py:1219-1224`: the loop over the items of the correction function. -/
def cCorrections (og : OpenGraph) : PyDict ℕ (Finset ℕ) → PyDict ℕ (Finset ℕ) × PyDict ℕ (Finset ℕ) →
    Except PyErr (PyDict ℕ (Finset ℕ) × PyDict ℕ (Finset ℕ))
  | [], d => .ok d
  | (n, correcting) :: l, d => do
    let neighbors ← og.neighbors correcting
    cCorrections og l (setIfNonempty d.1 n correcting, setIfNonempty d.2 n (neighbors \ {n}))

/-- `flow/core.py:1201-1226` `CausalFlow.to_xzcorrections`. -/
def toXZC (f : Flow) : Except PyErr XZCorrections := do
  let d ← cCorrections f.og f.corr ([], [])
  return ⟨f.og, d.1, d.2, f.layers⟩

end Flow

namespace XZCorrections

/-- `flow/core.py:211-234` `to_causalflow`. -/
def toCausalFlow (xz : XZCorrections) (ord : SetOrd) : Except PyErr Flow := do
  let cf : Flow := ⟨xz.og, xz.x, xz.layers⟩
  cf.checkC ord
  return cf

/-- `flow/core.py:257-265`: the loop over the measurements. -/
def gflowFunction (x : PyDict ℕ (Finset ℕ)) : PyDict ℕ Measurement → PyDict ℕ (Finset ℕ) → Except PyErr (PyDict ℕ (Finset ℕ))
  | [], d => .ok d
  | (i, m) :: l, d => do
    let plane ← m.toPlane
    let corrections := (x.get? i).getD ∅
    gflowFunction x l (d.set i (if plane = .XZ ∨ plane = .YZ then insert i corrections else corrections))

/-- `flow/core.py:236-269` `to_gflow`. -/
def toGFlow (xz : XZCorrections) (ord : SetOrd) : Except PyErr Flow := do
  let corr ← gflowFunction xz.x xz.og.measurements []
  let gf : Flow := ⟨xz.og, corr, xz.layers⟩
  gf.checkG ord
  return gf

end XZCorrections
end Graphix
