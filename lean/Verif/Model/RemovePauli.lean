import Verif.Model.PauliPushing
import Verif.Spec.GraphState

/-!
# Model of `graphix/remove_pauli_measurements.py`, lines 198-624

The networkx graph is the list of its nodes and the adjacency relation, as in `Model/GraphSim.lean`.
Iterations over the neighbours of a node follow the order of the list: the gates applied to different
nodes commute.  The choices `next(iter(set))` and the iteration over `pauli_measurements[Axis.X]` follow
an arbitrary order `order`, which may depend on the whole state, hence on time.
-/

namespace Graphix

open scoped symmDiff

/-- `remove_pauli_measurements.py:198-214` `class _NodeSpec`. -/
structure NodeSpec where
  src : ℕ
  domains : Domains
  clifford : Clifford
  pauli : Option PauliMeasurement

/-- `remove_pauli_measurements.py:217-255` `class _RemovePauliMeasurements` without the cut (which does not
change).  The keys of the dictionary `node_specs` are the nodes of the graph. -/
structure Rpm where
  nodes : List ℕ
  adj : ℕ → ℕ → Bool
  specs : ℕ → NodeSpec
  pauli : Axis → Finset ℕ
  inputs : Finset ℕ
  outputs : Finset ℕ
  nodeMap : ℕ → Option ℕ

/-- Python `set.remove`. -/
def setRemove (s : Finset ℕ) (x : ℕ) : Except PyErr (Finset ℕ) :=
  if x ∈ s then .ok (s.erase x) else .error .keyError

/-- `remove_pauli_measurements.py:543-548` `_complement_subgraph`. -/
def complementSubgraph (adj : ℕ → ℕ → Bool) (s : List ℕ) : ℕ → ℕ → Bool := fun x y =>
  if x ≠ y ∧ x ∈ s ∧ y ∈ s then !adj x y else adj x y

/-- `remove_pauli_measurements.py:551-559` `_complement_edges`, for disjoint `s` and `t` (as in the only calls). -/
def complementEdges (adj : ℕ → ℕ → Bool) (s t : Finset ℕ) : ℕ → ℕ → Bool := fun x y =>
  if (x ∈ s ∧ y ∈ t) ∨ (x ∈ t ∧ y ∈ s) then !adj x y else adj x y

/-- `remove_pauli_measurements.py:562-583` `_map_domain`. -/
def mapDomain (nodeMap : ℕ → Option ℕ) (domain : Finset ℕ) : Finset ℕ :=
  (domain.filter fun n => (nodeMap n).isSome).image fun n => (nodeMap n).getD 0

namespace Rpm

/-- The neighbours of a node. -/
def nbrs (p : Rpm) (u : ℕ) : List ℕ := p.nodes.filter (p.adj u)

/-- Write access to the annotation of a node. -/
def setSpec (p : Rpm) (n : ℕ) (s : NodeSpec) : Rpm := { p with specs := fun i => if i = n then s else p.specs i }

/-- Write access to the set of an axis. -/
def setPauli (p : Rpm) (a : Axis) (s : Finset ℕ) : Rpm := { p with pauli := fun b => if b = a then s else p.pauli b }

/-- `remove_pauli_measurements.py:271-277`: the registration of a Pauli measurement. -/
def registerPauli (p : Rpm) (cmd : MCmd) : Except PyErr Rpm :=
  match cmd.measurement with
  | .bloch _ => .error .typeError
  | .pauli m =>
    if cmd.node ∉ p.nodes then .error .keyError
    else
      let p := p.setSpec cmd.node { p.specs cmd.node with pauli := some m }
      .ok (if cmd.node ∉ p.inputs then p.setPauli m.axis (insert cmd.node (p.pauli m.axis)) else p)

/-- `remove_pauli_measurements.py:257-278` `__init__`.  `StandardizedPattern.graph` is `optimization.py:224-237`. -/
def init (cut : PauliCut) (sp : StdPattern) : Except PyErr Rpm := do
  let nodes := (sp.inputs ++ sp.nList.map Prod.fst).reverse.dedup.reverse
  if ¬ ∀ k ∈ sp.xDict.keys ++ sp.zDict.keys ++ sp.cDict.keys, k ∈ nodes then throw .keyError
  let p : Rpm :=
    { nodes := nodes
      adj := fun x y => decide (s(x, y) ∈ sp.eSet)
      specs := fun n =>
        { src := n
          domains := ⟨expandDomain cut.shifted ((sp.xDict.get? n).getD ∅), expandDomain cut.shifted ((sp.zDict.get? n).getD ∅)⟩
          clifford := (sp.cDict.get? n).getD Clifford.I
          pauli := none }
      pauli := fun _ => ∅
      inputs := sp.inputs.toFinset
      outputs := sp.outputs.toFinset
      nodeMap := fun n => if n ∈ nodes then some n else none }
  cut.pauli.foldlM registerPauli p

/-- `remove_pauli_measurements.py:280-300` `_apply_clifford`. -/
def applyClifford (p : Rpm) (node : ℕ) (clifford : Clifford) : Except PyErr Rpm :=
  let spec := p.specs node
  match clifford.commuteDomains? spec.domains with
  | none => .error .runtimeError
  | some d =>
    let spec := { spec with clifford := spec.clifford.mul clifford, domains := d }
    match spec.pauli with
    | none => .ok (p.setSpec node spec)
    | some m =>
      match m.clifford? clifford with
      | none => .error .valueError
      | some m' =>
        let p := p.setSpec node { spec with pauli := some m' }
        if node ∈ p.inputs then .ok p
        else if m'.axis ≠ m.axis then do
          let s ← setRemove (p.pauli m.axis) spec.src
          let p := p.setPauli m.axis s
          return p.setPauli m'.axis (insert spec.src (p.pauli m'.axis))
        else .ok p

/-- A loop `for node in l: self._apply_clifford(node, clifford)`. -/
def applyCliffords (p : Rpm) (l : List ℕ) (clifford : Clifford) : Except PyErr Rpm :=
  l.foldlM (fun p n => p.applyClifford n clifford) p

/-- `remove_pauli_measurements.py:302-314` `local_complement`. -/
def localComplement (p : Rpm) (u : ℕ) : Except PyErr Rpm := do
  let nu := p.nbrs u
  let p := { p with adj := complementSubgraph p.adj nu }
  let p ← p.applyClifford u ((Clifford.H.mul Clifford.SDG).mul Clifford.H)
  p.applyCliffords nu Clifford.S

/-- `remove_pauli_measurements.py:316-358` `pivot_edge`. -/
def pivotEdge (p : Rpm) (u v : ℕ) : Except PyErr Rpm := do
  let nu := (p.nbrs u).toFinset
  let nv := (p.nbrs v).toFinset
  let inter := nu ∩ nv
  let onlyU := (nu \ inter) \ {v}
  let onlyV := (nv \ inter) \ {u}
  let interL := (p.nbrs u).filter fun n => p.adj v n
  let p := { p with adj := complementEdges p.adj onlyU onlyV }
  let p := { p with adj := complementEdges p.adj onlyU inter }
  let p := { p with adj := complementEdges p.adj onlyV inter }
  let specU := p.specs u
  let specV := p.specs v
  let p := p.setSpec v specU
  let p := p.setSpec u specV
  let p := { p with nodeMap := fun w => if w = specU.src then some v else p.nodeMap w }
  let p := { p with nodeMap := fun w => if w = specV.src then some u else p.nodeMap w }
  let p ← p.applyClifford u Clifford.H
  let p ← p.applyClifford v Clifford.H
  let p ← p.applyCliffords interL Clifford.Z
  let uOutput := decide (u ∈ p.outputs)
  let vOutput := decide (v ∈ p.outputs)
  if uOutput ≠ vOutput then
    let (old, new) := if uOutput then (u, v) else (v, u)
    let s ← setRemove p.outputs old
    return { p with outputs := insert new s }
  else return p

/-- `remove_pauli_measurements.py:360-371` `_remove_node`. -/
def removeNode (p : Rpm) (u : ℕ) : Except PyErr Rpm := do
  let spec := p.specs u
  let p ← match spec.pauli with
    | none => pure p
    | some m => do
      let s ← setRemove (p.pauli m.axis) spec.src
      pure (p.setPauli m.axis s)
  if (p.nodeMap spec.src).isNone then throw .keyError
  if u ∉ p.nodes then throw .keyError
  return { p with
    nodeMap := fun w => if w = spec.src then none else p.nodeMap w
    nodes := p.nodes.erase u
    adj := fun x y => p.adj x y && decide (x ≠ u) && decide (y ≠ u) }

/-- `remove_pauli_measurements.py:373-386` `remove_z`. -/
def removeZ (p : Rpm) (u : ℕ) (sign : Sign) : Except PyErr Rpm := do
  let p ← if sign = .minus then p.applyCliffords (p.nbrs u) Clifford.Z else pure p
  p.removeNode u

/-- `remove_pauli_measurements.py:388-399` `remove_y`. -/
def removeY (p : Rpm) (u : ℕ) (sign : Sign) : Except PyErr Rpm := do
  let p ← p.localComplement u
  p.removeZ u sign

/-- `remove_pauli_measurements.py:401-415` `remove_x_with_internal_neighbor`. -/
def removeXWithInternalNeighbor (p : Rpm) (u v : ℕ) (sign : Sign) : Except PyErr Rpm := do
  let p ← p.pivotEdge u v
  p.removeZ v sign

/-- The `while` loop of `remove_all_y_or_z` for one axis (`remove_pauli_measurements.py:427-433`).  Each turn
removes a node; the model runs at most `fuel` turns (`C35_remove_pauli` shows that the number of nodes is enough). -/
def removeAxis (order : Rpm → Finset ℕ → List ℕ) (axis : Axis) (remove : Rpm → ℕ → Sign → Except PyErr Rpm) :
    ℕ → Rpm → Except PyErr Rpm
  | 0, p => match (order p (p.pauli axis)).head? with
    | none => .ok p
    | some _ => .error .runtimeError
  | fuel + 1, p => match (order p (p.pauli axis)).head? with
    | none => .ok p
    | some node => match p.nodeMap node with
      | none => .error .keyError
      | some newNode => match (p.specs newNode).pauli with
        | none => .error .runtimeError
        | some m => do
          let p ← remove p newNode m.sign
          removeAxis order axis remove fuel p

/-- `remove_pauli_measurements.py:417-433` `remove_all_y_or_z`. -/
def removeAllYOrZ (order : Rpm → Finset ℕ → List ℕ) (p : Rpm) : Except PyErr Rpm := do
  let p ← removeAxis order .Y removeY p.nodes.length p
  removeAxis order .Z removeZ p.nodes.length p

/-- The loop of `try_remove_x_with_internal_neighbor` (`remove_pauli_measurements.py:435-459`); `none` when the Python
method returns `False`. -/
def tryRemoveX (order : Rpm → Finset ℕ → List ℕ) (p : Rpm) : List ℕ → Except PyErr (Option Rpm)
  | [] => .ok none
  | node :: l => match p.nodeMap node with
    | none => .error .keyError
    | some newNode =>
      let internal := ((p.nbrs newNode).toFinset \ p.inputs) \ p.outputs
      match (order p internal).head? with
      | none => tryRemoveX order p l
      | some v => match (p.specs newNode).pauli with
        | none => .error .runtimeError
        | some m => do
          let p ← p.removeXWithInternalNeighbor newNode v m.sign
          return some p

/-- The loop of `try_pivot_x_with_output_node` (`remove_pauli_measurements.py:461-485`). -/
def tryPivotX (order : Rpm → Finset ℕ → List ℕ) (p : Rpm) : List ℕ → Except PyErr (Option Rpm)
  | [] => .ok none
  | node :: l => match p.nodeMap node with
    | none => .error .keyError
    | some newNode =>
      let outs := (p.nbrs newNode).toFinset ∩ (p.outputs \ p.inputs)
      match (order p outs).head? with
      | none => tryPivotX order p l
      | some v => do
        let p ← p.pivotEdge newNode v
        return some p

/-- `remove_pauli_measurements.py:487-502` `remove_isolated_internal_nodes`, with the number of warnings.  The keys of
`pauli_measurements` are axes and never nodes, so that the test `node not in self.pauli_measurements` always
succeeds, and a warning is emitted for every removed node. -/
def removeIsolated (p : Rpm) : Except PyErr (Rpm × ℕ) :=
  (p.nodes.filter fun n => (p.nbrs n).isEmpty).foldlM
    (fun (p, warnings) n =>
      if n ∉ p.inputs ∧ n ∉ p.outputs then do
        let p ← p.removeNode n
        pure (p, warnings + 1)
      else pure (p, warnings)) (p, 0)

/-- `remove_pauli_measurements.py:504-513` `_create_new_m`. -/
noncomputable def createNewM (p : Rpm) (m : MCmd) : Except PyErr (Option MCmd) :=
  match p.nodeMap m.node with
  | none => .ok none
  | some node => match m.clifford? (p.specs node).clifford with
    | none => .error .runtimeError
    | some m' => .ok (some ⟨node, m'.measurement, mapDomain p.nodeMap m'.sDomain, mapDomain p.nodeMap m'.tDomain⟩)

/-- `remove_pauli_measurements.py:515-540` `to_standardizedpattern`. -/
noncomputable def toStd (p : Rpm) (cut : PauliCut) (sp : StdPattern) : Except PyErr StdPattern := do
  let outputs ← sp.outputs.mapM fun n => match p.nodeMap n with
    | none => .error .keyError
    | some m => .ok m
  let ms ← (cut.pauli ++ cut.nonPauli).mapM p.createNewM
  return {
    inputs := sp.inputs
    outputs := outputs
    nList := sp.nList.filter fun n => n.1 ∈ p.nodes
    eSet := ((edgesOf p.adj p.nodes).map fun e => s(e.1, e.2)).toFinset
    mList := ms.filterMap id
    zDict := outputs.filterMap fun n =>
      let t := mapDomain p.nodeMap (p.specs n).domains.t
      if t ≠ ∅ then some (n, t) else none
    xDict := outputs.filterMap fun n =>
      let s := mapDomain p.nodeMap (p.specs n).domains.s
      if s ≠ ∅ then some (n, s) else none
    cDict := outputs.filterMap fun n =>
      let c := (p.specs n).clifford
      if c ≠ Clifford.I then some (n, c) else none }

/-- The `while True` loop of `remove_pauli_measurements` (`remove_pauli_measurements.py:616-622`); each turn but the last
leads to the removal of a node, so that the number of nodes bounds the number of turns (`C35_remove_pauli`). -/
def mainLoop (order : Rpm → Finset ℕ → List ℕ) : ℕ → Rpm → Except PyErr Rpm
  | fuel, p => do
    let p ← p.removeAllYOrZ order
    match ← p.tryRemoveX order (order p (p.pauli .X)) with
    | some p => match fuel with
      | 0 => .error .runtimeError
      | fuel + 1 => mainLoop order fuel p
    | none => match ← p.tryPivotX order (order p (p.pauli .X)) with
      | some p => match fuel with
        | 0 => .error .runtimeError
        | fuel + 1 => mainLoop order fuel p
      | none => .ok p

end Rpm

/-- `remove_pauli_measurements.py:586-624` `remove_pauli_measurements`, the cut of `sp` being given; with the number of
warnings. -/
noncomputable def removePauliMeasurements (order : Rpm → Finset ℕ → List ℕ) (cut : PauliCut) (sp : StdPattern) :
    Except PyErr (StdPattern × ℕ) := do
  let p ← Rpm.init cut sp
  let p ← Rpm.mainLoop order p.nodes.length p
  let (p, warnings) ← p.removeIsolated
  let sp' ← p.toStd cut sp
  return (sp', warnings)

/-- `pattern.py:1888-1928` `Pattern.remove_pauli_measurements(copy=True, standardize=...)`, where `nbr` enumerates the
neighbourhoods and `edges` the edges of the resulting pattern; with the number of warnings. -/
noncomputable def Pattern.removePauliMeasurements (order : Rpm → Finset ℕ → List ℕ) (nbr : StdPattern → ℕ → List ℕ)
    (edges : StdPattern → List (ℕ × ℕ)) (standardize : Bool) (p : Pattern) : Except PyErr (Pattern × ℕ) := do
  let sp ← StdPattern.fromPattern p
  let (sp', warnings) ← Graphix.removePauliMeasurements order (PauliCut.ofStd ∅ sp) sp
  let q ← if standardize then sp'.toPattern (edges sp') else sp'.toSpaceOptimalPattern (nbr sp')
  return (q, warnings)

end Graphix
