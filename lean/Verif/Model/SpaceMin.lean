import Verif.Model.Standardize

/-!
# Model of `graphix/space_minimization.py`

`graph.neighbors(node)` enumerates the neighbours of a node in an order that depends on the order in
which Python enumerated `e_set`: it is a parameter `nbr`, constrained by `NbrOk` in the theorems.
-/

namespace Graphix

/-- `nbr` enumerates, for each node, its neighbours in the graph of the pattern
(`optimization.py:224-237` `StandardizedPattern.graph`, then `graph.neighbors`). -/
def NbrOk (E : Finset (Sym2 ℕ)) (nbr : ℕ → List ℕ) : Prop :=
  ∀ u, (nbr u).Nodup ∧ ∀ v, v ∈ nbr u ↔ s(u, v) ∈ E

/-- State of `standardized_pattern_max_space` (`space_minimization.py:68-71`). -/
structure SpaceState where
  initialized : Finset ℕ
  numActive : ℤ
  maxActive : ℤ

namespace SpaceState

/-- `space_minimization.py:73-79` `activate`. -/
def activate (st : SpaceState) (node : ℕ) : SpaceState :=
  if node ∈ st.initialized then st
  else ⟨insert node st.initialized, st.numActive + 1, max (st.numActive + 1) st.maxActive⟩

/-- `space_minimization.py:81-85` `activate_neighborhood`. -/
def activateNeighborhood (nbr : ℕ → List ℕ) (st : SpaceState) (node : ℕ) : SpaceState :=
  (nbr node).foldl activate (st.activate node)

end SpaceState

/-- `space_minimization.py:52-92` `standardized_pattern_max_space`. -/
def StdPattern.maxSpace (sp : StdPattern) (nbr : ℕ → List ℕ) : ℤ :=
  let st : SpaceState := ⟨sp.inputs.toFinset, sp.inputs.length, sp.inputs.length⟩
  let st := sp.mList.foldl (fun st m =>
    let st := st.activateNeighborhood nbr m.node
    { st with numActive := st.numActive - 1 }) st
  let st := sp.outputs.foldl (fun st n => st.activateNeighborhood nbr n) st
  st.maxActive

/-- State of `standardized_to_space_optimal_pattern` (`space_minimization.py:112-114`): the commands
added to `target`, the initialized nodes and the nodes that are done. -/
structure OptState where
  seq : List Command
  initialized : Finset ℕ
  done : Finset ℕ

namespace OptState

/-- `space_minimization.py:118-122` `ensure_active`; `n_dict[node]` may raise `KeyError`. -/
def ensureActive (nd : PyDict ℕ PlanarState) (st : OptState) (node : ℕ) : Except PyErr OptState :=
  if node ∈ st.initialized then .ok st
  else match PyDict.get? nd node with
    | none => .error .keyError
    | some s => .ok { st with seq := st.seq ++ [.N node s], initialized := insert node st.initialized }

/-- `space_minimization.py:128-130`: the body of the loop over the neighbours. -/
def linkNeighbor (nd : PyDict ℕ PlanarState) (node : ℕ) (st : OptState) (v : ℕ) :
    Except PyErr OptState :=
  if v ∈ st.done then .ok st
  else do
    let st ← st.ensureActive nd v
    return { st with seq := st.seq ++ [.E node v] }

/-- `space_minimization.py:124-130` `ensure_neighborhood`. -/
def ensureNeighborhood (nd : PyDict ℕ PlanarState) (nbr : ℕ → List ℕ) (st : OptState) (node : ℕ) :
    Except PyErr OptState := do
  let st ← st.ensureActive nd node
  (nbr node).foldlM (linkNeighbor nd node) st

end OptState

namespace StdPattern

/-- `space_minimization.py:115` `n_dict` (a later entry replaces an earlier one). -/
def nDict (sp : StdPattern) : PyDict ℕ PlanarState :=
  sp.nList.foldl (fun d n => PyDict.set d n.1 n.2) []

/-- `space_minimization.py:132-135`: the body of the loop over the measurements. -/
def optMeasure (sp : StdPattern) (nbr : ℕ → List ℕ) (st : OptState) (m : MCmd) :
    Except PyErr OptState := do
  let st ← st.ensureNeighborhood sp.nDict nbr m.node
  return { st with seq := st.seq ++ [m.toCmd], done := insert m.node st.done }

/-- `space_minimization.py:138-143`: the corrections added for an output node (empty domains are
falsy; every `Clifford` is truthy). -/
def optCorrections (sp : StdPattern) (node : ℕ) : List Command :=
  (match PyDict.get? sp.zDict node with
    | some d => if d ≠ ∅ then [Command.Z node d] else []
    | none => []) ++
  (match PyDict.get? sp.xDict node with
    | some d => if d ≠ ∅ then [Command.X node d] else []
    | none => []) ++
  (match PyDict.get? sp.cDict node with
    | some c => [Command.C node c]
    | none => [])

/-- `space_minimization.py:136-144`: the body of the loop over the outputs. -/
def optOutput (sp : StdPattern) (nbr : ℕ → List ℕ) (st : OptState) (node : ℕ) :
    Except PyErr OptState := do
  let st ← st.ensureNeighborhood sp.nDict nbr node
  return { st with seq := st.seq ++ sp.optCorrections node, done := insert node st.done }

/-- The commands of `standardized_to_space_optimal_pattern` (`space_minimization.py:112-144`). -/
def optSeq (sp : StdPattern) (nbr : ℕ → List ℕ) : Except PyErr OptState := do
  let st ← sp.mList.foldlM (sp.optMeasure nbr) ⟨[], sp.inputs.toFinset, ∅⟩
  sp.outputs.foldlM (sp.optOutput nbr) st

/-- `space_minimization.py:95-146` `standardized_to_space_optimal_pattern`. -/
def toSpaceOptimalPattern (sp : StdPattern) (nbr : ℕ → List ℕ) : Except PyErr Pattern := do
  let st ← sp.optSeq nbr
  ((Pattern.empty sp.inputs).extend st.seq).reorderOutputNodes sp.outputs

/-- `space_minimization.py:149-164` `SpaceMinimizationHeuristicResult`. -/
structure HeuristicResult where
  newOrder : List ℕ
  knownOptimal : Bool

/-- A heuristic (`space_minimization.py:167`): may decline (`None`) or raise. -/
abbrev Heuristic := StdPattern → Except PyErr (Option HeuristicResult)

/-- `space_minimization.py:203-217` `order_unchanged`. -/
def orderUnchanged : Heuristic := fun sp => .ok (some ⟨sp.mList.map MCmd.node, false⟩)

/-- `m_dict` (`space_minimization.py:301`). -/
def mDict (sp : StdPattern) : PyDict ℕ MCmd :=
  sp.mList.foldl (fun d m => PyDict.set d m.node m) []

/-- `m_dict[node]` (`space_minimization.py:306`). -/
def lookupM (sp : StdPattern) (n : ℕ) : Except PyErr MCmd :=
  match PyDict.get? sp.mDict n with
  | some m => .ok m
  | none => .error .keyError

/-- `space_minimization.py:306-307`: the pattern with the measurements in the given order. -/
def reorder (sp : StdPattern) (order : List ℕ) : Except PyErr StdPattern := do
  let ms ← order.mapM sp.lookupM
  return { sp with mList := ms }

/-- `space_minimization.py:311-314`: the best pattern so far is kept. -/
def keepBest (best : Option (StdPattern × ℤ)) (space : ℤ) : Bool :=
  match best with
  | some b => decide (b.2 ≤ space)
  | none => false

/-- The loop of `minimize_space` (`space_minimization.py:302-318`). -/
def minimizeLoop (sp : StdPattern) (nbr : ℕ → List ℕ) :
    List Heuristic → Option (StdPattern × ℤ) → Except PyErr StdPattern
  | [], none => .ok sp
  | [], some best => .ok best.1
  | f :: fs, best => do
    let r ← f sp
    match r with
    | none => sp.minimizeLoop nbr fs best
    | some hr =>
      let tentative ← sp.reorder hr.newOrder
      if hr.knownOptimal then return tentative
      else
        let space := tentative.maxSpace nbr
        if keepBest best space then sp.minimizeLoop nbr fs best
        else sp.minimizeLoop nbr fs (some (tentative, space))

/-- `space_minimization.py:263-318` `minimize_space` (the graph of the tentative patterns is that of
the pattern, so the same enumeration `nbr` is used; `max_space` does not depend on it,
`C19_max_space_nbr`). -/
def minimizeSpace (sp : StdPattern) (nbr : ℕ → List ℕ) (heuristics : List Heuristic) :
    Except PyErr StdPattern := sp.minimizeLoop nbr heuristics none

/-- `space_minimization.py:321-342` `_extract_dependency`, as a function of the node. -/
def dependency (sp : StdPattern) (node : ℕ) : Finset ℕ :=
  ((sp.mList.filter (fun m => m.node = node)).map (fun m => m.sDomain ∪ m.tDomain)).foldr (· ∪ ·) ∅ ∪
  ((PyDict.get? sp.zDict node).getD ∅) ∪ ((PyDict.get? sp.xDict node).getD ∅)

/-- The loop of `greedy_degree` (`space_minimization.py:232-237`).  `measured` are the nodes chosen
so far; the candidates are the nodes of `not_measured` whose remaining dependencies are empty; `min`
returns one of the candidates of smallest degree in the remaining graph (which one depends on Python's
set order): `choose` is that selection.  `min` of an empty sequence raises `ValueError`. -/
def greedyLoop (sp : StdPattern) (choose : (ℕ → ℕ) → Finset ℕ → ℕ) (measured : List ℕ)
    (notMeasured : Finset ℕ) : Except PyErr (List ℕ) :=
  if _h : notMeasured = ∅ then .ok []
  else
    let cand := notMeasured.filter (fun i => sp.dependency i \ measured.toFinset = ∅)
    if cand = ∅ then .error .valueError
    else
      let degree : ℕ → ℕ := fun i =>
        (sp.eSet.filter (fun e => i ∈ e ∧ ∀ k ∈ measured, k ∉ e)).card
      let next := choose degree cand
      if _hn : next ∈ notMeasured then do
        let rest ← sp.greedyLoop choose (measured ++ [next]) (notMeasured.erase next)
        return next :: rest
      else .error .runtimeError  -- excluded by the specification of `choose`
termination_by notMeasured.card
decreasing_by exact Finset.card_erase_lt_of_mem _hn

/-- `space_minimization.py:219-238` `greedy_degree`. -/
def greedyDegree (choose : (ℕ → ℕ) → Finset ℕ → ℕ) : Heuristic := fun sp => do
  let nodes := sp.inputs.toFinset ∪ (sp.nList.map Prod.fst).toFinset
  let order ← sp.greedyLoop choose [] (nodes \ sp.outputs.toFinset)
  return some ⟨order, false⟩

end StdPattern

end Graphix
