import Verif.Model.Circuit
import Verif.Model.FlowOrder
import Verif.Model.SpaceMin

/-!
# Model of `Circuit.transpile` (`graphix/transpiler.py`)
-/

namespace Graphix

/-- networkx `graph.has_edge(u, v)` on the list of edges. -/
def hasEdge (es : List (ℕ × ℕ)) (u v : ℕ) : Prop := (u, v) ∈ es ∨ (v, u) ∈ es

instance (es : List (ℕ × ℕ)) (u v : ℕ) : Decidable (hasEdge es u v) := by unfold hasEdge; infer_instance

/-- networkx `graph.remove_edge(u, v)` of an edge that is present. -/
def removeEdge (es : List (ℕ × ℕ)) (u v : ℕ) : List (ℕ × ℕ) := es.filter fun e => e ≠ (u, v) ∧ e ≠ (v, u)

/-- networkx `graph.add_edge(u, v)`. -/
def addGraphEdge (es : List (ℕ × ℕ)) (u v : ℕ) : List (ℕ × ℕ) := if hasEdge es u v then es else es ++ [(u, v)]

/-- `transpiler.py:441-448`: the variables of `transpile_to_causalflow`. The graph is given by the set of its nodes and
the list of its edges; `classical` maps a node to the axis of the command `M(node, PauliMeasurement(axis))`. -/
structure JczState where
  indices : List (Option ℕ)
  nNodes : ℕ
  measurements : PyDict ℕ Measurement
  classical : PyDict ℕ Axis
  nodes : Finset ℕ
  edges : List (ℕ × ℕ)
  x : PyDict ℕ (Finset ℕ)

/-- `transpiler.py:441-448`: initial values. -/
def JczState.init (width : ℕ) : JczState :=
  ⟨(List.range width).map some, width, [], [], Finset.range width, [], []⟩

/-- `indices[q]` followed by the test that it is not `None`. -/
def JczState.index (st : JczState) (q : ℕ) : Except PyErr ℕ :=
  match st.indices[q]? with
  | none => .error .indexError
  | some none => .error .runtimeError
  | some (some n) => .ok n

/-- `transpiler.py:449-482`: the body of the loop. The last case is `assert_never`. -/
noncomputable def JczState.step (st : JczState) : Instr → Except PyErr JczState
  | .M t a => do
    let target ← st.index t
    return { st with classical := st.classical.set target a, indices := st.indices.set t none }
  | .J t θ => do
    let target ← st.index t
    return { st with
      edges := addGraphEdge st.edges target st.nNodes
      nodes := st.nodes ∪ {target, st.nNodes}
      measurements := st.measurements.set target (.bloch ⟨normalizeAngle (-θ), .XY⟩)
      indices := st.indices.set t (some st.nNodes)
      x := st.x.set target {st.nNodes}
      nNodes := st.nNodes + 1 }
  | .CZ t0 t1 => do
    let i0 ← st.index t0
    let i1 ← st.index t1
    if hasEdge st.edges i0 i1 then return { st with edges := removeEdge st.edges i0 i1 }
    else return { st with edges := addGraphEdge st.edges i0 i1, nodes := st.nodes ∪ {i0, i1} }
  | _ => .error .assertionError

/-- `transpiler.py:449-482`: the loop. -/
noncomputable def JczState.run (st : JczState) : List Instr → Except PyErr JczState
  | [] => .ok st
  | i :: l => do
    let st ← st.step i
    st.run l

/-- `transpiler.py:483-489`: the open graph. networkx lists the edges in an order that depends on the history of the
graph, and each edge in one of its two orientations: `eord` gives this list. -/
def JczState.openGraph (width : ℕ) (eord : List (ℕ × ℕ) → List (ℕ × ℕ)) (st : JczState) : OpenGraph where
  nodes := st.nodes
  edges := eord st.edges
  inputs := List.range width
  outputs := st.indices.filterMap id ++ st.classical.keys
  measurements := st.measurements
  cliffords := []

/-- `transpiler.py:490-494`: the Z corrections. -/
def zCorrections (og : OpenGraph) : PyDict ℕ (Finset ℕ) → PyDict ℕ (Finset ℕ) → Except PyErr (PyDict ℕ (Finset ℕ))
  | [], d => .ok d
  | (node, correctors) :: l, d => do
    let nb ← og.neighbors correctors
    let targets := nb \ {node}
    zCorrections og l (if targets ≠ ∅ then d.set node targets else d)

/-- `transpiler.py:67-74` `TranspiledFlow`. -/
structure TranspiledFlow where
  flow : Flow
  classical : PyDict ℕ Axis

/-- `transpiler.py:430-497` `transpile_to_causalflow`. -/
noncomputable def Circuit.transpileToCausalFlow (c : Circuit) (ord : SetOrd) (eord : List (ℕ × ℕ) → List (ℕ × ℕ)) :
    Except PyErr TranspiledFlow := do
  let st ← (JczState.init c.width).run (instructionsToJcz c.instrs)
  let og := st.openGraph c.width eord
  og.postInit
  let z ← zCorrections og st.x []
  let layers ← correctionsToPartialOrderLayers og ord st.x z
  return ⟨⟨og, st.x, layers⟩, st.classical⟩

/-- `transpiler.py:56-64` `TranspiledPattern`. -/
structure TranspiledPattern where
  pattern : Pattern
  classicalOutputs : List ℕ

/-- `transpiler.py:75-79` `TranspiledFlow.to_pattern`; `nbr` is the order in which networkx lists neighbours. -/
noncomputable def TranspiledFlow.toPattern (t : TranspiledFlow) (ord : SetOrd) (nbr : Finset (Sym2 ℕ) → ℕ → List ℕ) :
    Except PyErr TranspiledPattern := do
  let xz ← t.flow.toXZC
  let p ← xz.toPattern ord none
  let sp ← StdPattern.fromPattern p
  let q ← sp.toSpaceOptimalPattern (nbr sp.eSet)
  return ⟨q.extend (t.classical.map fun kv => Command.M kv.1 (.pauli ⟨kv.2, .plus⟩) ∅ ∅), t.classical.keys⟩

/-- `transpiler.py:498-513` `Circuit.transpile(transpile_swaps=False)`. -/
noncomputable def Circuit.transpileKeepSwaps (c : Circuit) (ord : SetOrd) (eord : List (ℕ × ℕ) → List (ℕ × ℕ))
    (nbr : Finset (Sym2 ℕ) → ℕ → List ℕ) : Except PyErr TranspiledPattern := do
  let t ← c.transpileToCausalFlow ord eord
  t.toPattern ord nbr

/-- `transpiler.py:498-519` `Circuit.transpile()`. -/
noncomputable def Circuit.transpile (c : Circuit) (ord : SetOrd) (eord : List (ℕ × ℕ) → List (ℕ × ℕ))
    (nbr : Finset (Sym2 ℕ) → ℕ → List ℕ) : Except PyErr TranspiledPattern := do
  let swap ← transpileSwaps c
  let result ← swap.circuit.transpileKeepSwaps ord eord nbr
  let outs ← swap.swapOutputNodes result.pattern.outputs
  let p ← result.pattern.reorderOutputNodes outs
  let classical ← swap.swapClassicalOutputs result.classicalOutputs
  return ⟨p, classical⟩

end Graphix
