import Verif.Model.FindCflow
import Verif.Model.FindGpflow
import Verif.Model.Clifford

/-!
# Model of `OpenGraph.to_pattern` and `Clifford.to_opengraph`
-/

namespace Graphix

/-- `measurements.py:117-129, 240-242, 442-445` `downcast_bloch` of one measurement: a `PauliMeasurement` raises `TypeError`. -/
def Measurement.downcastBloch : Measurement → Except PyErr Measurement
  | .bloch m => .ok (.bloch m)
  | .pauli _ => .error .typeError

namespace OpenGraph

/-- `opengraph.py:161-190` `map`, restricted to `downcast_bloch`: the loop over the measurements. -/
def downcastMeasurements : PyDict ℕ Measurement → Except PyErr (PyDict ℕ Measurement)
  | [] => .ok []
  | (n, m) :: l => do
    let m ← m.downcastBloch
    let l ← downcastMeasurements l
    return (n, m) :: l

/-- `opengraph.py:208-235` `downcast_bloch`. -/
def downcastBloch (og : OpenGraph) : Except PyErr OpenGraph := do
  let ms ← downcastMeasurements og.measurements
  let og' : OpenGraph := { og with measurements := ms }
  og'.postInit
  return og'

/-- `opengraph.py:106-146` `to_pattern`. The method `to_xzcorrections` is that of the class of the flow that was found. -/
noncomputable def toPattern (og : OpenGraph) (ord : SetOrd) (mmo : MulOrd) : Except PyErr Pattern := do
  let causal ← match og.downcastBloch with
    | .error .typeError => .ok none
    | .error e => .error e
    | .ok bloch => findCflow bloch ord
  match causal with
  | some f => do
    let xz ← f.toXZC
    xz.toPattern ord none
  | none => do
    match ← og.toPauliflowOrNone ord mmo with
    | some f => do
      let xz ← f.toXZPauli ord
      xz.toPattern ord none
    | none => throw .openGraphError

end OpenGraph

/-- `clifford.py:190-196`: a path graph with one measured node for each Pauli measurement of the list. -/
def pathOpenGraph (decomposition : List (Axis × Sign)) : OpenGraph :=
  let n := decomposition.length
  { nodes := Finset.range (n + 1)
    edges := (List.range n).map fun i => (i, i + 1)
    inputs := [0]
    outputs := [n]
    measurements := decomposition.zipIdx.map fun mi => (mi.2, .pauli ⟨mi.1.1, mi.1.2⟩)
    cliffords := [] }

/-- `clifford.py:185-196` `to_opengraph`. -/
def Clifford.toOpenGraph (c : Clifford) : OpenGraph := pathOpenGraph (lookup cliffordPauliDecomposition c [])

/-- `optimization.py:623-625, 644-645`: the state of the loop: the pattern under construction, the current name of the nodes, the
highest node. -/
structure RemoveClifford where
  pattern : Pattern
  mapping : PyDict ℕ ℕ
  maxNode : ℕ

/-- `optimization.py:630-648`: the loop over the commands. -/
noncomputable def removeCliffordLoop (ord : SetOrd) (mmo : MulOrd) : List Command → RemoveClifford → Except PyErr RemoveClifford
  | [], st => .ok st
  | .C node clifford :: l, st => do
    let cmdNode := Pattern.applyMapping st.mapping node
    let cliffordPattern ← clifford.toOpenGraph.toPattern ord mmo
    match cliffordPattern.outputs with
    | [outputNode] => do
      let renamed ← cliffordPattern.reindexFunc fun node => if node = 0 then cmdNode else node + st.maxNode
      let maxNode := st.maxNode + outputNode
      removeCliffordLoop ord mmo l ⟨st.pattern.extend renamed.seq, st.mapping.set node maxNode, maxNode⟩
    | _ => throw .valueError
  | cmd :: l, st =>
    removeCliffordLoop ord mmo l { st with pattern := st.pattern.add (cmd.reindex (Pattern.applyMapping st.mapping)) }

/-- `optimization.py:613-650` `remove_local_clifford_commands`. -/
noncomputable def removeLocalCliffordCommands (ord : SetOrd) (mmo : MulOrd) (p : Pattern) : Except PyErr Pattern :=
  if p.nodes = ∅ then .ok p
  else do
    let st ← removeCliffordLoop ord mmo p.seq ⟨Pattern.empty p.inputs, [], p.nodes.sup id⟩
    st.pattern.reorderOutputNodes (p.outputs.map (Pattern.applyMapping st.mapping))

end Graphix
