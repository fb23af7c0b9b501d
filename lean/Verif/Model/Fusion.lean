import Mathlib.Data.Finset.Basic
import Mathlib.Data.Finset.Union
import Mathlib.Data.Sym.Sym2
import Mathlib.Data.List.Dedup
import Verif.Model.Pattern

/-!
# Model of `graphix/extraction.py`: fusion networks

A networkx graph is the list of its nodes, in their order, and for each node the list of its neighbours, in their
order (the dictionaries of `graph.adjacency()`).  `max_ghz` and `max_lin` are only compared with lengths: they are
natural numbers, or `none` for `np.inf`.
-/

namespace Graphix

/-- `graph.adjacency()`. -/
structure NxGraph where
  nodes : List ℕ
  adj : ℕ → List ℕ

/-- `extraction.py:34-55` `class ResourceGraph`; `ghz` is `cltype == ResourceType.GHZ` (the other type that occurs is
`LINEAR`).  The nodes and the edges are those of the networkx graph. -/
structure ResourceGraph where
  ghz : Bool
  nodes : List ℕ
  edges : Finset (Sym2 ℕ)

namespace Fusion

/-- The edges `(node_ids[i], node_ids[i + 1])`. -/
def pairs : List ℕ → List (Sym2 ℕ)
  | a :: b :: l => s(a, b) :: pairs (b :: l)
  | _ => []

/-- `extraction.py:147-173` `create_resource_graph`. The nodes of the networkx graph are in the order of their first
occurrence. -/
def createResourceGraph (ids : List ℕ) (root : Option ℕ) : ResourceGraph :=
  match root with
  | some r => ⟨true, ids.reverse.dedup.reverse, ((ids.filter (· ≠ r)).map fun i => s(r, i)).toFinset⟩
  | none => ⟨false, ids.reverse.dedup.reverse, (pairs ids).toFinset⟩

/-- The comparison `k < m`. -/
def below (k : ℕ) : Option ℕ → Bool
  | none => true
  | some m => decide (k < m)

/-- The local variables `adjdict`, `number_of_edges` and `resource_list`. -/
structure St where
  adj : ℕ → List ℕ
  ne : ℤ
  out : List ResourceGraph

/-- `extraction.py:104-107` and `117-120`: `n, _ = adjdict[v].popitem(); …; del adjdict[n][v]; number_of_edges -= 1`. -/
def popEdge (s : St) (v : ℕ) : Except PyErr (ℕ × St) :=
  match (s.adj v).getLast? with
  | none => .error .keyError
  | some n =>
    let adj := Function.update s.adj v (s.adj v).dropLast
    if v ∉ adj n then .error .keyError
    else .ok (n, { s with adj := Function.update adj n ((adj n).erase v), ne := s.ne - 1 })

/-- `extraction.py:103-107`: the `while` loop on the neighbours of a root. Each turn removes a neighbour: the first
argument is the number of neighbours. -/
def ghzLoop (maxGhz : Option ℕ) (v : ℕ) : ℕ → St → List ℕ → Except PyErr (St × List ℕ)
  | 0, s, nodes => if 0 < (s.adj v).length ∧ below nodes.length maxGhz then .error .runtimeError else .ok (s, nodes)
  | k + 1, s, nodes =>
    if 0 < (s.adj v).length ∧ below nodes.length maxGhz then
      match popEdge s v with
      | .error e => .error e
      | .ok (n, s) => ghzLoop maxGhz v k s (nodes ++ [n])
    else .ok (s, nodes)

/-- `extraction.py:101-108`: the body of the loop on the roots. -/
def ghzStep (maxGhz : Option ℕ) (s : St) (v : ℕ) : Except PyErr St :=
  if 2 < (s.adj v).length then
    match ghzLoop maxGhz v (s.adj v).length s [v] with
    | .error e => .error e
    | .ok (s, nodes) => .ok { s with out := s.out ++ [createResourceGraph nodes (some v)] }
  else .ok s

/-- `extraction.py:116-121`: the `while` loop that follows a line. Each turn removes an edge: the first argument is the
number of edges. -/
def linLoop (maxLin : Option ℕ) : ℕ → St → ℕ → List ℕ → Except PyErr (St × List ℕ)
  | 0, s, n, nodes => if 0 < (s.adj n).length ∧ below nodes.length maxLin then .error .runtimeError else .ok (s, nodes)
  | k + 1, s, n, nodes =>
    if 0 < (s.adj n).length ∧ below nodes.length maxLin then
      match popEdge s n with
      | .error e => .error e
      | .ok (n2, s) => linLoop maxLin k s n2 (nodes ++ [n2])
    else .ok (s, nodes)

/-- `extraction.py:123-129`: the resource graph of a line. -/
def lineGraph (nodes : List ℕ) : ResourceGraph :=
  match nodes with
  | [a, b, c] => createResourceGraph [b, a, c] (some b)
  | [a, b] => createResourceGraph [a, b] (some a)
  | nodes => createResourceGraph nodes none

/-- `extraction.py:112-129`: the body of the loop on the ends of lines. -/
def linStep (maxLin : Option ℕ) (s : St) (v : ℕ) : Except PyErr St :=
  if (s.adj v).length = 1 then
    match linLoop maxLin s.ne.toNat s v [v] with
    | .error e => .error e
    | .ok (s, nodes) => .ok { s with out := s.out ++ [lineGraph nodes] }
  else .ok s

/-- `extraction.py:131-143`: the loop that cuts a cycle. -/
def cycleStep (s : St) : List ℕ → Except PyErr St
  | [] => .ok s
  | v :: l =>
    match s.adj v with
    | [a, b] =>
      if v ∉ s.adj a then .error .keyError
      else
        let adj := Function.update s.adj a ((s.adj a).erase v)
        if v ∉ adj b then .error .keyError
        else
          let adj := Function.update adj b ((adj b).erase v)
          let adj := Function.update adj v (((adj v).erase a).erase b)
          .ok ⟨adj, s.ne - 2, s.out ++ [createResourceGraph [v, a, b] (some v)]⟩
    | _ => cycleStep s l

/-- `extraction.py:111-143`: the outer `while` loop, at most `fuel` turns; `none` when it is still running after these. -/
def mainLoop (nodes : List ℕ) (maxLin : Option ℕ) : ℕ → St → Except PyErr (Option (List ResourceGraph))
  | 0, s => if s.ne ≠ 0 then .ok none else .ok (some s.out)
  | k + 1, s =>
    if s.ne ≠ 0 then
      match nodes.foldlM (linStep maxLin) s with
      | .error e => .error e
      | .ok s =>
        match cycleStep s nodes with
        | .error e => .error e
        | .ok s => mainLoop nodes maxLin k s
    else .ok (some s.out)

/-- `graph.number_of_edges()`: half the sum of the degrees. -/
def numberOfEdges (g : NxGraph) : ℤ := (g.nodes.map fun v => (g.adj v).length).sum / 2

/-- `extraction.py:90-97` and `100`: the roots, by decreasing number of neighbours. -/
def roots (g : NxGraph) : List ℕ :=
  (g.nodes.filter fun v => 2 < (g.adj v).length).mergeSort fun a b => (g.adj b).length ≤ (g.adj a).length

/-- The state before the loop on the roots, with the isolated nodes. -/
def start (g : NxGraph) : St :=
  ⟨g.adj, numberOfEdges g, (g.nodes.filter fun v => (g.adj v).length = 0).map fun v => createResourceGraph [v] (some v)⟩

/-- `extraction.py:57-144` `graph_to_fusion_network`, with at most `fuel` turns of the outer loop. -/
def graphToFusionNetwork (g : NxGraph) (maxGhz maxLin : Option ℕ) (fuel : ℕ) : Except PyErr (Option (List ResourceGraph)) :=
  match (roots g).foldlM (ghzStep maxGhz) (start g) with
  | .error e => .error e
  | .ok s => mainLoop g.nodes maxLin fuel s

/-- `extraction.py:176-200` `fusion_nodes`, the arguments being resource graphs. `ResourceGraph.__eq__` (lines 49-54)
compares the types, the sets of nodes and the sets of edges. -/
def fusionNodes (c1 c2 : ResourceGraph) : List ℕ :=
  if c1.ghz = c2.ghz ∧ c1.nodes.toFinset = c2.nodes.toFinset ∧ c1.edges = c2.edges then []
  else c1.nodes.filter (· ∈ c2.nodes)

end Fusion
end Graphix
