import Verif.Model.Simulator
import Verif.Model.StdOpenGraph
import Verif.Model.Tensor
import Mathlib.Analysis.SpecialFunctions.Pow.Real

/-!
# Model of `graphix/sim/tensornet.py`: the tensor-network backend

The library `quimb` is trusted for: `gen_str` (`rand_uuid`) gives a new index at each call, `contract(output_inds=[])` sums the product of the
tensors over all the values of all the indices, `full_simplify` does not change the result of a contraction, `split` factors a tensor, adding a
network renames the inner indices that clash, `conj` and `.H` conjugate the entries.  All the indices have dimension 2 (the bond of the
factorisation of CZ too, because the rank of CZ between the two qubits is 2).  The numbers are exact.
-/

namespace Graphix

open scoped Classical

/-- A quimb `Tensor`: its indices, its entries, the tag that names the node, and whether it has the tag `"Open"`
(the tags that the program does not read are left out). -/
structure QTensor where
  inds : List ℕ
  data : List Bool → ℂ
  node : ℕ
  isOpen : Bool

namespace QTensor

/-- The entry of the tensor at an assignment of the indices. -/
def val (t : QTensor) (a : ℕ → Bool) : ℂ := t.data (t.inds.map a)

/-- `Tensor.conj` (quimb). -/
noncomputable def conj (t : QTensor) : QTensor := { t with data := fun l => star (t.data l) }

/-- `Tensor.reindex` (quimb). -/
def reindex (t : QTensor) (f : ℕ → ℕ) : QTensor := { t with inds := t.inds.map f }

end QTensor

/-- The indices of the tensors. -/
def allInds (ts : List QTensor) : Finset ℕ := (ts.flatMap QTensor.inds).toFinset

/-- `contract(output_inds=[])` (quimb): an assignment of the indices is given by the set `T` of the indices whose value is 1. -/
noncomputable def contractAll (ts : List QTensor) : ℂ :=
  ∑ T ∈ (allInds ts).powerset, (ts.map fun t => t.val fun i => decide (i ∈ T)).prod

/-- The number of tensors that have the index. -/
def indCount (ts : List QTensor) (i : ℕ) : ℕ := ts.countP fun t => i ∈ t.inds

/-- The inner indices (quimb): those of two tensors at least. -/
def innerInds (ts : List QTensor) : Finset ℕ := (allInds ts).filter fun i => 2 ≤ indCount ts i

/-- `TensorNetwork.add_tensor_network(check_collisions=True)` (quimb): the inner indices of the second network that are also inner
indices of the first one get new names (here `i + fresh`). -/
def combineNets (fresh : ℕ) (ts ts' : List QTensor) : List QTensor :=
  ts ++ ts'.map fun t => t.reindex fun i => if i ∈ innerInds ts ∧ i ∈ innerInds ts' then i + fresh else i

/-- `retag({"Open": "Close"}, inplace=True)` of the first tensor that has the index (`tensor_map[tid[0]]`). -/
def closeFirst (i : ℕ) : List QTensor → List QTensor
  | [] => []
  | t :: ts => if i ∈ t.inds then { t with isOpen := false } :: ts else t :: closeFirst i ts

/-- `sim/tensornet.py:42-78` `class MBQCTensorNet`: the tensors, the number of indices already generated, `_dangling` and
`default_output_nodes`. The branch selector is in `TnEnv`. -/
structure TensorNet where
  tensors : List QTensor
  fresh : ℕ
  dangling : PyDict ℕ ℕ
  outputs : Option (List ℕ)

/-- `sim/tensornet.py:39` `PrepareState`: the name of a state, or an array (one-dimensional here). -/
inductive PrepareState
  | name (s : String)
  | array (l : List ℂ)

/-- `sim/tensornet.py:114-134`: the vector of a state; `np.isclose` is exact. -/
noncomputable def PrepareState.vec : PrepareState → Except PyErr (Bool → ℂ)
  | .name "plus" => .ok (PlanarState.vec ⟨.XY, 0⟩)
  | .name "minus" => .ok (PlanarState.vec ⟨.XY, 1⟩)
  | .name "zero" => .ok (PlanarState.vec ⟨.XZ, 0⟩)
  | .name "one" => .ok (PlanarState.vec ⟨.XZ, 1⟩)
  | .name "iplus" => .ok (PlanarState.vec ⟨.XY, 1 / 2⟩)
  | .name "iminus" => .ok (PlanarState.vec ⟨.XY, -1 / 2⟩)
  | .name _ => .error .typeError
  | .array l =>
    if l.length ≠ 2 then .error .valueError
    else if (l.map Complex.normSq).sum ≠ 1 then .error .valueError
    else .ok (fun x => l.getD x.toNat 0)

/-- A tensor of rank 1, `Tensor(vec, [ind], …)`. -/
def vecTensor (v : Bool → ℂ) (i node : ℕ) (isOpen : Bool) : QTensor := ⟨[i], fun l => v (l.getD 0 false), node, isOpen⟩

/-- `sim/tensornet.py:158-162`: a tensor of rank 2. -/
def matTensor (U : Mat2) (out inp node : ℕ) : QTensor := ⟨[out, inp], fun l => U (l.getD 0 false) (l.getD 1 false), node, true⟩

/-- A tensor of rank 3 (`sim/tensornet.py:730-739`). -/
def cubeTensor (A : Bool → Bool → Bool → ℂ) (i j k node : ℕ) : QTensor :=
  ⟨[i, j, k], fun l => A (l.getD 0 false) (l.getD 1 false) (l.getD 2 false), node, true⟩

namespace TensorNet

/-- `MBQCTensorNet(default_output_nodes=…)`. -/
def empty (outputs : Option (List ℕ)) : TensorNet := ⟨[], 0, [], outputs⟩

/-- `sim/tensornet.py:80-99` `open_tensor` (`StopIteration` is modelled by `RuntimeError`). -/
def openTensor (tn : TensorNet) (node : ℕ) : Except PyErr QTensor :=
  match tn.tensors.find? fun t => t.node = node && t.isOpen with
  | some t => .ok t
  | none => .error .runtimeError

/-- `self._dangling[str(node)]`. -/
def dang (tn : TensorNet) (node : ℕ) : Except PyErr ℕ :=
  match tn.dangling.get? node with
  | some i => .ok i
  | none => .error .keyError

/-- `sim/tensornet.py:101-137` `add_qubit`. -/
noncomputable def addQubit (tn : TensorNet) (node : ℕ) (state : PrepareState) : Except PyErr TensorNet := do
  let v ← state.vec
  return { tn with
    tensors := tn.tensors ++ [vecTensor v tn.fresh node true]
    fresh := tn.fresh + 1
    dangling := tn.dangling.set node tn.fresh }

/-- `sim/tensornet.py:194-195`: the loop of `add_qubits`. -/
noncomputable def addQubitsLoop (tn : TensorNet) : List ℕ → List PrepareState → Except PyErr TensorNet
  | [], [] => .ok tn
  | n :: ns, s :: ss => do
    let tn ← tn.addQubit n s
    addQubitsLoop tn ns ss
  | _, _ => .error .valueError

/-- `sim/tensornet.py:166-195` `add_qubits` with one state for all the qubits. -/
noncomputable def addQubits (tn : TensorNet) (nodes : List ℕ) (state : PrepareState := .name "plus") : Except PyErr TensorNet :=
  tn.addQubitsLoop nodes (List.replicate nodes.length state)

/-- `sim/tensornet.py:139-164` `evolve_single`. -/
def evolveSingle (tn : TensorNet) (node : ℕ) (U : Mat2) : Except PyErr TensorNet := do
  let old ← tn.dang node
  return { tn with
    tensors := closeFirst old tn.tensors ++ [matTensor U tn.fresh old node]
    fresh := tn.fresh + 1
    dangling := tn.dangling.set node tn.fresh }

/-- `sim/tensornet.py:257-263`: the projector of `measure_single` (`.H` conjugates). -/
noncomputable def project (tn : TensorNet) (node : ℕ) (v : Bool → ℂ) : Except PyErr TensorNet := do
  let old ← tn.dang node
  return { tn with tensors := closeFirst old tn.tensors ++ [(vecTensor v old node false).conj] }

/-- `sim/tensornet.py:239-253`: the vector of an outcome in a basis given by its name. -/
noncomputable def basisVec : String → Bool → Except PyErr (Bool → ℂ)
  | "Z", r => .ok (PlanarState.vec ⟨.XZ, if r then 1 else 0⟩)
  | "X", r => .ok (PlanarState.vec ⟨.XY, if r then 1 else 0⟩)
  | "Y", r => .ok (PlanarState.vec ⟨.XY, if r then -1 / 2 else 1 / 2⟩)
  | _, _ => .error .valueError

/-- `sim/tensornet.py:197-264` `measure_single` with the name of a basis and a chosen outcome. -/
noncomputable def measureSingle (tn : TensorNet) (node : ℕ) (basis : String) (outcome : Bool) : Except PyErr (TensorNet × Bool) := do
  let v ← basisVec basis outcome
  let tn ← tn.project node v
  return (tn, outcome)

/-! ### Graph states (`sim/tensornet.py:266-312`) -/

/-- The variables of the first loop of `prepare_graph_state`: `ind_dict`, `vec_dict`, `_dangling`, the number of indices. -/
structure GraphPrep where
  indDict : PyDict ℕ (List ℕ)
  vecDict : PyDict ℕ (List Bool)
  dangling : PyDict ℕ ℕ
  fresh : ℕ

/-- `sim/tensornet.py:281-286`: a node of an edge. -/
def prepNode (g : GraphPrep) (node : ℕ) : GraphPrep :=
  if g.indDict.contains node then g
  else ⟨g.indDict.set node [g.fresh], g.vecDict.set node [], g.dangling.set node g.fresh, g.fresh + 1⟩

/-- `d[k].append(x)`, for a key of the dictionary. -/
def appendTo {β : Type} (d : PyDict ℕ (List β)) (k : ℕ) (x : β) : PyDict ℕ (List β) := d.set k ((d.get? k).getD [] ++ [x])

/-- `sim/tensornet.py:280-293`: an edge. -/
def prepEdge (g : GraphPrep) (e : ℕ × ℕ) : GraphPrep :=
  let g := prepNode (prepNode g e.1) e.2
  let greater := decide (e.1 > e.2)
  let vecDict := appendTo (appendTo g.vecDict e.1 greater) e.2 (!greater)
  let indDict := appendTo (appendTo g.indDict e.1 g.fresh) e.2 g.fresh
  ⟨indDict, vecDict, g.dangling, g.fresh + 1⟩

/-- `states.py:94` `BasicStates.VEC[b + 2 * f]`, for the bits `b` and `f`. -/
noncomputable def vecState (b f : Bool) : Bool → ℂ := PlanarState.vec ⟨if f then .XZ else .XY, if b then 1 else 0⟩

/-- `sim/tensornet.py:816-831` `outer_product` (the limits of `einsum` and of NumPy on the number of dimensions are left out). -/
def outerProduct : List (Bool → ℂ) → List Bool → ℂ
  | [], _ => 1
  | v :: vs, l => v (l.getD 0 false) * outerProduct vs l.tail

/-- `sim/tensornet.py:301-312`: the tensor of a node that has neighbours. -/
noncomputable def graphTensor (inds : List ℕ) (vecs : List Bool) (node : ℕ) : QTensor :=
  ⟨inds, fun l => outerProduct (vecs.map (vecState (l.getD 0 false))) l.tail * ((Real.rpow 2 ((vecs.length : ℝ) / 4 - 1 / 2) : ℝ) : ℂ), node, true⟩

/-- `sim/tensornet.py:295-312`: the second loop, a node. -/
noncomputable def prepTensor (indDict : PyDict ℕ (List ℕ)) (vecDict : PyDict ℕ (List Bool)) (tn : TensorNet) (node : ℕ) : TensorNet :=
  match indDict.get? node with
  | none => { tn with
      tensors := tn.tensors ++ [vecTensor (PlanarState.vec ⟨.XY, 0⟩) tn.fresh node true]
      fresh := tn.fresh + 1
      dangling := tn.dangling.set node tn.fresh }
  | some inds => { tn with tensors := tn.tensors ++ [graphTensor inds ((vecDict.get? node).getD []) node] }

/-- `sim/tensornet.py:266-312` `prepare_graph_state`. -/
noncomputable def prepareGraphState (tn : TensorNet) (nodes : List ℕ) (edges : List (ℕ × ℕ)) : TensorNet :=
  let g := edges.foldl prepEdge ⟨[], [], tn.dangling, tn.fresh⟩
  nodes.foldl (prepTensor g.indDict g.vecDict) { tn with dangling := g.dangling, fresh := g.fresh }

/-! ### Read-out -/

/-- `sim/tensornet.py:314-317` `_require_default_output_nodes`. -/
def requireOutputs (tn : TensorNet) : Except PyErr (List ℕ) :=
  match tn.outputs with
  | some l => .ok l
  | none => .error .valueError

/-- `sim/tensornet.py:319-338`: `indices` if they are given, the default outputs else. -/
def indicesOr (tn : TensorNet) (indices : Option (List ℕ)) : Except PyErr (List ℕ) :=
  match indices with
  | some l => .ok l
  | none => tn.requireOutputs

/-- `sim/tensornet.py:344-357`: the projectors on the bits of `basis` (`len(indices) - i - 1` is the number of nodes that are left). -/
noncomputable def basisTensors (tn : TensorNet) : List ℕ → ℕ → Except PyErr (List QTensor)
  | [], _ => .ok []
  | n :: l, basis => do
    let i ← tn.dang n
    let one := decide (basis / 2 ^ l.length = 1)
    let ts ← tn.basisTensors l (if one then basis - 2 ^ l.length else basis)
    return vecTensor (PlanarState.vec ⟨.XZ, if one then 1 else 0⟩) i n false :: ts

/-- `sim/tensornet.py:319-361` `basis_coefficient(basis, normalize=False, indices)`. -/
noncomputable def rawCoefficient (tn : TensorNet) (basis : ℕ) (indices : Option (List ℕ) := none) : Except PyErr ℂ := do
  let l ← tn.indicesOr indices
  let ts ← tn.basisTensors l basis
  return contractAll (tn.tensors ++ ts)

/-- `sim/tensornet.py:410-423` `norm`. -/
noncomputable def norm (tn : TensorNet) : ℝ :=
  Real.sqrt ‖contractAll (combineNets tn.fresh tn.tensors (tn.tensors.map QTensor.conj))‖

/-- `sim/tensornet.py:362-365` `basis_coefficient(basis)`; `none` stands for NaN or infinity. -/
noncomputable def basisCoefficient (tn : TensorNet) (basis : ℕ) (indices : Option (List ℕ) := none) : Except PyErr (Option ℂ) := do
  let c ← tn.rawCoefficient basis indices
  return if tn.norm = 0 then none else some (c / tn.norm)

/-- `sim/tensornet.py:367-383` `basis_amplitude`; `none` stands for NaN or infinity. -/
noncomputable def basisAmplitude (tn : TensorNet) (basis : ℕ) : Except PyErr (Option ℝ) := do
  let c ← tn.basisCoefficient basis
  return c.map fun c => ‖c‖ ^ 2

/-- `sim/tensornet.py:402-403`: the loop of `to_statevector`, the first `k` entries. -/
noncomputable def svEntries (tn : TensorNet) (indices : Option (List ℕ)) : ℕ → Except PyErr (List ℂ)
  | 0 => .ok []
  | k + 1 => do
    let l ← tn.svEntries indices k
    let c ← tn.rawCoefficient k indices
    return l ++ [c]

/-- `sim/tensornet.py:385-404` `to_statevector`; `none` stands for an array of NaN (division by a norm that is 0). -/
noncomputable def toStatevector (tn : TensorNet) (indices : Option (List ℕ) := none) : Except PyErr (Option (List ℂ)) := do
  let nodes ← tn.indicesOr indices
  let l ← tn.svEntries indices (2 ^ nodes.length)
  let nrm := Real.sqrt (l.map Complex.normSq).sum
  return if nrm = 0 then none else some (l.map fun c => c / nrm)

/-- `sim/tensornet.py:450, 498`: `[out_inds[ind] for ind in qubit_indices]` (non-negative indices). -/
def pickNodes (out : List ℕ) : List ℕ → Except PyErr (List ℕ)
  | [] => .ok []
  | q :: qs => do
    let n ← match out[q]? with
      | some n => Except.ok n
      | none => .error .indexError
    let ns ← pickNodes out qs
    return n :: ns

/-- `[self._dangling[str(index)] for index in node_indices]` (`sim/tensornet.py:499`). -/
def dangs (tn : TensorNet) : List ℕ → Except PyErr (List ℕ)
  | [] => .ok []
  | n :: l => do
    let i ← tn.dang n
    let is ← tn.dangs l
    return i :: is

/-- `reindex` of the first tensor that has the index `old` (`sim/tensornet.py:462-468`). -/
def reindexFirst (old new : ℕ) : List QTensor → List QTensor
  | [] => []
  | t :: ts => if old ∈ t.inds then t.reindex (fun i => if i = old then new else i) :: ts else t :: reindexFirst old new ts

/-- `sim/tensornet.py:460-470`: the loop on the output nodes; `new` is the first of the indices `new_ind_left` (or `new_ind_right`).
The tags are not changed (`retag` without `inplace`). -/
def openTargets (tn : TensorNet) (targets : List ℕ) (new : ℕ) : List ℕ → List QTensor → Except PyErr (List QTensor)
  | [], ts => .ok ts
  | n :: l, ts => do
    let old ← tn.dang n
    let ts := if n ∈ targets then reindexFirst old (new + targets.idxOf n) ts else ts
    openTargets tn targets new l ts

/-- `sim/tensornet.py:425-477` `expectation_value`; `none` stands for NaN or infinity. `ValueError`: `reshape`. -/
noncomputable def expectationValue (tn : TensorNet) (op : NpMat) (qubits : List ℕ) (outputs : Option (List ℕ) := none) :
    Except PyErr (Option ℂ) := do
  let out ← tn.indicesOr outputs
  let targets ← pickNodes out qubits
  let k := qubits.length
  if op.rows * op.cols ≠ 2 ^ (2 * k) then throw .valueError
  let left := tn.fresh
  let right := tn.fresh + k
  let opTs : QTensor := ⟨List.range' right k ++ List.range' left k, (op.reshape k).at', 0, false⟩
  let tsL ← tn.openTargets targets left out tn.tensors
  let tsR ← tn.openTargets targets right out (tn.tensors.map QTensor.conj)
  let v := contractAll (combineNets (tn.fresh + 2 * k) (tsL ++ [opTs]) tsR)
  return if tn.norm = 0 then none else some (v / (tn.norm : ℂ) ^ 2)

/-- `for i in range(len(node_indices)): self._dangling[…] = new_ind_list[i]` (`sim/tensornet.py:501-502`). -/
def setDangs (d : PyDict ℕ ℕ) (new : ℕ) : List ℕ → PyDict ℕ ℕ
  | [] => d
  | n :: l => setDangs (d.set n new) (new + 1) l

/-- `sim/tensornet.py:479-522` `evolve` (with `decompose`, the tensor is replaced with factors of the same product: left out). -/
noncomputable def evolve (tn : TensorNet) (op : NpMat) (qubits : List ℕ) : Except PyErr TensorNet := do
  let k := qubits.length
  if op.rows * op.cols ≠ 2 ^ (2 * k) then throw .valueError
  let out ← tn.requireOutputs
  let nodes ← pickNodes out qubits
  let old ← tn.dangs nodes
  return { tn with
    tensors := tn.tensors ++ [⟨List.range' tn.fresh k ++ old, (op.reshape k).at', 0, false⟩]
    fresh := tn.fresh + k
    dangling := setDangs tn.dangling tn.fresh nodes }

/-- `sim/tensornet.py:525-541` `copy(deep=False)`: the tensors are copied, the dictionary `_dangling` is shared (it is the same object),
the default outputs are lost. This is the copy just after it is made. -/
def copy (tn : TensorNet) : TensorNet := { tn with outputs := none }

end TensorNet

/-! ### The backend -/

/-- What a run depends on besides the pattern.

* `sel`: the branch selector, given the outcomes so far, the node and the probability of outcome 0; `selAgain`: the second call of the
  selector, by `measure_single`, whose result is ignored (`sim/tensornet.py:231-235`);
* `cz1`, `cz2`: the two factors of CZ;
* `enum`: the order of the edges of a graph, `nodeOrd`: the order of its nodes. -/
structure TnEnv where
  sel : PyDict ℕ Bool → ℕ → ℝ → Except PyErr Bool
  selAgain : PyDict ℕ Bool → ℕ → ℝ → Except PyErr Bool
  cz1 : Bool → Bool → Bool → ℂ
  cz2 : Bool → Bool → Bool → ℂ
  enum : Finset (Sym2 ℕ) → List (ℕ × ℕ)
  nodeOrd : Finset ℕ → List ℕ

/-- `graph_prep` (`sim/tensornet.py:632-646`). -/
inductive GraphPrepMode
  | parallel
  | sequential
  | opt
  | auto
  | other

/-- `pattern.py:1225-1238` `Pattern.to_opengraph`. -/
noncomputable def Pattern.toOpenGraph (p : Pattern) (enum : Finset (Sym2 ℕ) → List (ℕ × ℕ)) : Except PyErr OpenGraph := do
  let sp ← StdPattern.fromPattern p
  sp.toOpenGraph (enum sp.eSet)

/-- `graph.degree` (networkx), for a graph without loops. -/
def OpenGraph.degree (og : OpenGraph) (n : ℕ) : ℕ := og.edges.countP fun e => e.1 = n || e.2 = n

/-- `pattern.py:1190-1204` `Pattern.max_degree`. -/
noncomputable def Pattern.maxDegree (p : Pattern) (enum : Finset (Sym2 ℕ) → List (ℕ × ℕ)) : Except PyErr ℕ := do
  let og ← p.toOpenGraph enum
  return og.nodes.sup og.degree

/-- `pattern.py:1214-1223` `Pattern.isolated_nodes`. -/
noncomputable def Pattern.isolatedNodes (p : Pattern) (enum : Finset (Sym2 ℕ) → List (ℕ × ℕ)) : Except PyErr (Finset ℕ) := do
  let og ← p.toOpenGraph enum
  return og.nodes.filter fun n => og.degree n = 0

/-- `sim/tensornet.py:579-589` the fields of `TensorNetworkBackend` that are read, with `measure_method.results`. -/
structure TnState where
  net : TensorNet
  parallel : Bool
  isolated : Finset ℕ
  results : PyDict ℕ Bool

/-- `sim/tensornet.py:617-673` `TensorNetworkBackend.__init__`, without `input_state`. -/
noncomputable def tnInit (env : TnEnv) (p : Pattern) (mode : GraphPrepMode) : Except PyErr TnState := do
  let parallel ← match mode with
    | .parallel | .opt => Except.ok true
    | .sequential => .ok false
    | .auto => do
      let d ← p.maxDegree env.enum
      pure !(decide (d > 5) || !p.isStandard false)
    | .other => .error .valueError
  let net ← if parallel then
      if !p.isStandard false then throw .valueError
      else do
        let og ← p.toOpenGraph env.enum
        pure ((TensorNet.empty (some p.outputs)).prepareGraphState (env.nodeOrd og.nodes) og.edges)
    else pure (TensorNet.empty (some p.outputs))
  let isolated ← p.isolatedNodes env.enum
  return ⟨net, parallel, isolated, []⟩

namespace TnState

/-- `sim/tensornet.py:676-706` `add_nodes` with the state `|+⟩`. -/
noncomputable def addNodes (st : TnState) (nodes : List ℕ) : Except PyErr TnState := do
  if st.parallel then return st
  let net ← st.net.addQubits nodes
  return { st with net := net }

/-- `sim/tensornet.py:676-706` `add_nodes` of one node (`simulator.py:79-83`): only the state `BasicStates.PLUS` is accepted. -/
noncomputable def addNode (st : TnState) (n : ℕ) (s : PlanarState) : Except PyErr TnState :=
  if s ≠ PlanarState.plus then .error .notImplementedError else st.addNodes [n]

/-- `sim/tensornet.py:709-744` `entangle_nodes`. `IndexError`: `tensors[1]`, when one tensor has the two indices. -/
def entangleNodes (env : TnEnv) (st : TnState) (u v : ℕ) : Except PyErr TnState := do
  if st.parallel then return st
  let tn := st.net
  let o0 ← tn.dang u
  let o1 ← tn.dang v
  if (tn.tensors.countP fun t => o0 ∈ t.inds || o1 ∈ t.inds) < 2 then throw .indexError
  let f := tn.fresh
  return { st with net := { tn with
    tensors := closeFirst o1 (closeFirst o0 tn.tensors) ++ [cubeTensor env.cz1 f o0 (f + 2) u, cubeTensor env.cz2 (f + 2) (f + 1) o1 v]
    fresh := f + 3
    dangling := (tn.dangling.set u f).set v (f + 1) } }

/-- `sim/tensornet.py:763-768`: `probs` of an isolated node. When the open tensor is not a vector, `probs[0]` is an array: `ValueError` when the
selector compares it with a number (selectors that do not read the probability are not modelled here). -/
noncomputable def isolatedProb (st : TnState) (node : ℕ) (o : Bool) : Except PyErr ℝ := do
  let t ← st.net.openTensor node
  if t.inds.length ≠ 1 then throw .valueError
  return Complex.normSq (t.data [o]) / (Complex.normSq (t.data [false]) + Complex.normSq (t.data [true]))

/-- `sim/tensornet.py:773-778`: the vector of the outcome. -/
noncomputable def outcomeVec (m : Measurement) (result : Bool) : Bool → ℂ :=
  let v := PlanarState.vec ⟨m.toBloch.plane, m.toBloch.angle⟩
  if result then fun x => Ops.fromAxis m.toBloch.plane.orth x false * v false + Ops.fromAxis m.toBloch.plane.orth x true * v true else v

/-- `sim/tensornet.py:747-781` `measure`. -/
noncomputable def measureNode (env : TnEnv) (st : TnState) (node : ℕ) (m : Measurement) : Except PyErr (TnState × Bool) := do
  let isolated := decide (node ∈ st.isolated)
  let p0 ← if isolated then st.isolatedProb node false else pure (1 / 2)
  let result ← env.sel st.results node p0
  let buffer ← if isolated then do
      let p ← st.isolatedProb node result
      pure (1 / Real.sqrt p)
    else pure (Real.sqrt 2)
  let v := outcomeVec m result
  let _ ← env.selAgain st.results node (1 / 2)
  let net ← st.net.project node fun x => v x * buffer
  return ({ st with net := net }, result)

/-- `sim/tensornet.py:784-798` `correct_byproduct`, `apply_clifford`. -/
def applySingle (st : TnState) (node : ℕ) (U : Mat2) : Except PyErr TnState := do
  let net ← st.net.evolveSingle node U
  return { st with net := net }

/-- `simulator.py:451-475`: one command. -/
noncomputable def step (env : TnEnv) (st : TnState) : Command → Except PyErr TnState
  | .N n s => st.addNode n s
  | .E u v => st.entangleNodes env u v
  | .M n m s t => do
    let description ← SimState.describeMeasurement st.results m s t
    let (st, result) ← st.measureNode env n description
    return { st with results := st.results.set n result }
  | .X n d => do
    if ← SimState.checkDomain st.results d then st.applySingle n Ops.X else return st
  | .Z n d => do
    if ← SimState.checkDomain st.results d then st.applySingle n Ops.Z else return st
  | .C n c => st.applySingle n c.matrix
  | .T => .ok st
  | .S _ _ => .error .valueError

/-- `simulator.py:449-478`: the loop over the commands. -/
noncomputable def loop (env : TnEnv) : List Command → TnState → Except PyErr TnState
  | [], st => .ok st
  | c :: l, st => do
    let st ← st.step env c
    loop env l st

end TnState

/-- `simulator.py:351-384, 396-479` with the backend `"tensornetwork"`: the construction of the backend, then `run(input_state)`
(`none`: `input_state=None`); `finalize` does nothing (`sim/tensornet.py:801-802`). -/
noncomputable def tnSimulate (env : TnEnv) (p : Pattern) (mode : GraphPrepMode) (data : Option InputData) : Except PyErr TnState := do
  let st ← tnInit env p mode
  let st ← match data with
    | none => Except.ok st
    | some d => if d ≠ .state PlanarState.plus then .error .notImplementedError else st.addNodes p.inputs
  match p.checkRunnability with
  | .error _ => throw .patternError
  | .ok () => pure ()
  st.loop env p.seq

end Graphix
