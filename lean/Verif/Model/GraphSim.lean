import Verif.Model.Pattern
import Verif.Model.Clifford
import Verif.Model.Simulator
import Verif.Spec.GraphState

/-!
# Model of `graphix/graphsim.py`

`class GraphState(nx.Graph)`.  The networkx graph is the list of its nodes in insertion order, the
attributes of each node and the adjacency relation.  Simplification: networkx remembers the insertion
order of the edges, which fixes the order in which `neighbors` iterates; here the order is the order of
the nodes, and the one function whose result depends on it (`equivalent_fill_node`) takes an arbitrary
reordering as a parameter.
-/

namespace Graphix

/-- `graphsim.py:29-34` `class MBQCGraphNode`. -/
structure GNode where
  sign : Bool
  loop : Bool
  hollow : Bool
  deriving DecidableEq, Repr

/-- `graphsim.py:37-51` `class GraphState`. -/
structure GraphState where
  nodes : List ℕ
  attr : ℕ → GNode
  adj : ℕ → ℕ → Bool

namespace GraphState

/-- networkx `self.neighbors(node)`. -/
def nbrs (g : GraphState) (node : ℕ) : List ℕ := g.nodes.filter (g.adj node)

/-- Write access to the attributes of a node, `self.nodes[node][...] = ...`. -/
def modAttr (g : GraphState) (node : ℕ) (f : GNode → GNode) : GraphState :=
  { g with attr := fun i => if i = node then f (g.attr i) else g.attr i }

/-- `graphsim.py:53-76` `__init__` without `vops`, `graphsim.py:79-102` `add_nodes_from` with plain node
numbers (attributes all false) and networkx `add_edges_from`.  Simplification: the ends of the edges
are among the nodes (networkx would otherwise create nodes without attributes, on which every
method raises `KeyError`). -/
def new (nodes : List ℕ) (edges : List (ℕ × ℕ)) : GraphState :=
  ⟨nodes.reverse.dedup.reverse, fun _ => ⟨false, false, false⟩, fun x y => decide ((x, y) ∈ edges ∨ (y, x) ∈ edges)⟩

/-- `graphsim.py:113-118` `local_complement`: the subgraph of the neighbours is replaced by its
complement. -/
def localComplement (g : GraphState) (node : ℕ) : GraphState :=
  { g with adj := fun x y =>
      if g.adj node x && g.adj node y then (if x = y then g.adj x y else !g.adj x y) else g.adj x y }

/-- `graphsim.py:164-176` `flip_fill`. -/
def flipFill (g : GraphState) (node : ℕ) : GraphState :=
  g.modAttr node fun a => { a with hollow := !a.hollow }

/-- `graphsim.py:178-193` `flip_sign`. -/
def flipSign (g : GraphState) (node : ℕ) : GraphState :=
  g.modAttr node fun a => { a with sign := !a.sign }

/-- `graphsim.py:195-216` `advance`. -/
def advance (g : GraphState) (node : ℕ) : GraphState :=
  if (g.attr node).loop then (g.modAttr node fun a => { a with loop := false }).flipSign node
  else g.modAttr node fun a => { a with loop := true }

/-- The loop `for i in self.neighbors(node): self.advance(i)`. -/
def advanceNbrs (g : GraphState) (node : ℕ) : GraphState := (g.nbrs node).foldl advance g

/-- The loop `for i in self.neighbors(node): self.flip_sign(i)`. -/
def flipSignNbrs (g : GraphState) (node : ℕ) : GraphState := (g.nbrs node).foldl flipSign g

/-- `graphsim.py:218-230` `h`. -/
def h (g : GraphState) (node : ℕ) : Except PyErr GraphState := do
  if node ∉ g.nodes then throw .keyError
  return g.flipFill node

/-- `graphsim.py:232-259` `s`. -/
def s (g : GraphState) (node : ℕ) : Except PyErr GraphState := do
  if node ∉ g.nodes then throw .keyError
  if (g.attr node).hollow then
    if (g.attr node).loop then
      let g := g.flipFill node
      let g := g.modAttr node fun a => { a with loop := false }
      let g := g.localComplement node
      return g.advanceNbrs node
    else
      let g := g.localComplement node
      let g := g.advanceNbrs node
      return if (g.attr node).sign then g.flipSignNbrs node else g
  else return g.advance node

/-- `graphsim.py:261-279` `z`. -/
def z (g : GraphState) (node : ℕ) : Except PyErr GraphState := do
  if node ∉ g.nodes then throw .keyError
  if (g.attr node).hollow then
    let g := g.flipSignNbrs node
    return if (g.attr node).loop then g.flipSign node else g
  else return g.flipSign node

/-- `graphsim.py:281-304` `equivalent_graph_e1`. -/
def equivalentGraphE1 (g : GraphState) (node : ℕ) : Except PyErr GraphState := do
  if node ∉ g.nodes then throw .keyError
  if !(g.attr node).loop then throw .valueError
  let g := g.flipFill node
  let g := g.localComplement node
  let g := g.advanceNbrs node
  let g := g.flipSign node
  return if (g.attr node).sign then g.flipSignNbrs node else g

/-- `graphsim.py:306-341` `equivalent_graph_e2`. -/
def equivalentGraphE2 (g : GraphState) (node1 node2 : ℕ) : Except PyErr GraphState := do
  if !(g.adj node1 node2) then throw .valueError
  if (g.attr node1).loop || (g.attr node2).loop then throw .valueError
  let sg1 := (g.attr node1).sign
  let sg2 := (g.attr node2).sign
  let g := g.flipFill node1
  let g := g.flipFill node2
  let g := g.localComplement node1
  let g := g.localComplement node2
  let g := g.localComplement node1
  let g := (g.nodes.filter fun i => g.adj node1 i && g.adj node2 i).foldl flipSign g
  let g := if sg1 then (g.flipSign node1).flipSignNbrs node1 else g
  return if sg2 then (g.flipSign node2).flipSignNbrs node2 else g

/-- `graphsim.py:343-379` `equivalent_fill_node`; `order` is the order of iteration over the neighbours. -/
def equivalentFillNode (order : List ℕ → List ℕ) (g : GraphState) (node : ℕ) :
    Except PyErr (ℕ × GraphState) := do
  if node ∉ g.nodes then throw .keyError
  if (g.attr node).hollow then
    if (g.attr node).loop then
      let g ← g.equivalentGraphE1 node
      return (0, g)
    else if g.nbrs node = [] then return (1, g)
    else
      match (order (g.nbrs node)).find? (fun i => !(g.attr i).loop) with
      | some i =>
        let g ← g.equivalentGraphE2 node i
        return (0, g)
      | none =>
        match order (g.nbrs node) with
        | [] => throw .runtimeError
        | i :: _ =>
          let g ← g.equivalentGraphE1 i
          let g ← g.equivalentGraphE1 node
          return (0, g)
  else if g.nbrs node = [] then return (2, g)
  else return (0, g)

/-- networkx `remove_node`. -/
def removeNode (g : GraphState) (node : ℕ) : GraphState :=
  { g with nodes := g.nodes.erase node, adj := fun x y => g.adj x y && decide (x ≠ node) && decide (y ≠ node) }

/-- `graphsim.py:439-465` `measure_z`. -/
def measureZ (order : List ℕ → List ℕ) (g : GraphState) (node : ℕ) (choice : ℕ) :
    Except PyErr (Bool × GraphState) := do
  if choice ≠ 0 ∧ choice ≠ 1 then throw .valueError
  let (isolated, g) ← g.equivalentFillNode order node
  let g := if choice ≠ 0 then g.flipSignNbrs node else g
  let result := if isolated = 0 then decide (choice = 1) else (g.attr node).sign
  return (result, g.removeNode node)

/-- `graphsim.py:381-412` `measure_x`. -/
def measureX (order : List ℕ → List ℕ) (g : GraphState) (node : ℕ) (choice : ℕ) :
    Except PyErr (Bool × GraphState) := do
  if choice ≠ 0 ∧ choice ≠ 1 then throw .valueError
  if node ∉ g.nodes then throw .networkXError
  if g.nbrs node = [] then
    let choice' :=
      if (g.attr node).hollow || (g.attr node).loop then decide (choice = 1)
      else if (g.attr node).sign then true
      else false
    return (choice', g.removeNode node)
  else
    let g ← g.h node
    g.measureZ order node choice

/-- `graphsim.py:414-437` `measure_y`. -/
def measureY (order : List ℕ → List ℕ) (g : GraphState) (node : ℕ) (choice : ℕ) :
    Except PyErr (Bool × GraphState) := do
  if choice ≠ 0 ∧ choice ≠ 1 then throw .valueError
  let g ← g.s node
  let g ← g.z node
  let g ← g.h node
  g.measureZ order node choice

/-- The body of the inner loop of `apply_vops` (`graphsim.py:134-142`). -/
def applyGate (node : ℕ) (g : GraphState) (lc : Clifford) : Except PyErr GraphState :=
  if lc = Clifford.Z then g.z node
  else if lc = Clifford.H then g.h node
  else if lc = Clifford.S then g.s node
  else .error .runtimeError

/-- `graphsim.py:120-142` `apply_vops`; the mapping is the list of its items. -/
def applyVops (g : GraphState) (vops : List (ℕ × Clifford)) : Except PyErr GraphState :=
  vops.foldlM (fun g p => p.2.hsz.reverse.foldlM (applyGate p.1) g) g

/-- The body of the loop of `extract_vops` (`graphsim.py:154-160`). -/
def vopOf (a : GNode) : Clifford :=
  let vop := Clifford.I
  let vop := if a.sign then Clifford.Z.mul vop else vop
  let vop := if a.loop then Clifford.S.mul vop else vop
  if a.hollow then Clifford.H.mul vop else vop

/-- `graphsim.py:144-162` `extract_vops`, as the list of the items of the dictionary. -/
def extractVops (g : GraphState) : List (ℕ × Clifford) := g.nodes.map fun i => (i, vopOf (g.attr i))

/-- One of the loops of `to_statevector` (`graphsim.py:504-512`): apply `op` to the qubits of the nodes
whose attribute is set; `order i` is the order of the (parallel) iterations of `evolve_single`. -/
noncomputable def evolveIf (order : ℕ → Option (List (ℕ × ℕ))) (g : GraphState) (op : Mat2) (attr : GNode → Bool)
    (sv : Statevector) : Except PyErr Statevector :=
  (List.range g.nodes.length).foldlM (fun sv i =>
    match g.nodes[i]? with
    | none => throw .indexError
    | some n => if attr (g.attr n) then sv.evolveSingle (order i) op i else pure sv) sv

/-- `graphsim.py:494-513` `to_statevector`; `entOrder` and `order` are the orders of the parallel iterations in
`entangle` and `evolve_single`.  Simplification: the edges come in the order of `edgesOf`. -/
noncomputable def toStatevector (entOrder : List ℕ) (order : ℕ → Option (List (ℕ × ℕ))) (g : GraphState) :
    Except PyErr Statevector := do
  let sv ← Statevector.init (.state PlanarState.plus) g.nodes.length
  let sv ← (edgesOf g.adj g.nodes).foldlM
    (fun sv e => sv.entangle entOrder (g.nodes.idxOf e.1) (g.nodes.idxOf e.2)) sv
  let sv ← g.evolveIf order Ops.Z GNode.sign sv
  let sv ← g.evolveIf order Ops.S GNode.loop sv
  g.evolveIf order Ops.H GNode.hollow sv

/-- `graphsim.py:515-517` `isolated_nodes`. -/
def isolatedNodes (g : GraphState) : List ℕ := g.nodes.filter fun i => (g.nbrs i).isEmpty

end GraphState

end Graphix
