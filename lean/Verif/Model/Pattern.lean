import Verif.Model.Command
import Mathlib.Data.Finset.Sort
import Mathlib.Data.Finset.Lattice.Fold
import Mathlib.Data.Finset.Fold
import Mathlib.Order.SymmDiff

/-!
# Model of `graphix/pattern.py`
-/

namespace Graphix

open scoped symmDiff

/-- Exceptions raised by the modelled functions. -/
inductive PyErr
  | valueError | keyError | indexError | patternError | assertionError | notImplementedError
  | typeError | runtimeError | zeroDivisionError | attributeError | networkXError | openGraphError
  | flowError | xzCorrectionsError
  deriving DecidableEq, Repr

/-- `pattern.py:70-120` `class Pattern`: `__input_nodes`, `__n_node`, `__seq`, `__output_nodes`. -/
structure Pattern where
  inputs : List ℕ
  nNode : ℕ
  seq : List Command
  outputs : List ℕ

namespace Pattern

/-- `pattern.py:88-114` `Pattern.__init__` without commands. -/
def empty (inputs : List ℕ) : Pattern := ⟨inputs, inputs.length, [], inputs⟩

/-- `pattern.py:122-139` `Pattern.add` (`list.remove` removes the first occurrence, as does
`List.erase`, which is the identity when the node is absent). -/
def add (p : Pattern) (cmd : Command) : Pattern :=
  match cmd with
  | .N n _ => { p with nNode := p.nNode + 1, outputs := p.outputs ++ [n], seq := p.seq ++ [cmd] }
  | .M n _ _ _ => { p with outputs := p.outputs.erase n, seq := p.seq ++ [cmd] }
  | _ => { p with seq := p.seq ++ [cmd] }

/-- `pattern.py:141-151` `Pattern.extend`. -/
def extend (p : Pattern) (cmds : List Command) : Pattern := cmds.foldl add p

/-- `pattern.py:153-157` `Pattern.clear`. -/
def clear (p : Pattern) : Pattern :=
  { p with nNode := p.inputs.length, seq := [], outputs := p.inputs }

/-- `pattern.py:159-169` `Pattern.replace`. -/
def replace (p : Pattern) (cmds : List Command) (inputs : Option (List ℕ)) : Pattern :=
  let p := match inputs with
    | some i => { p with inputs := i }
    | none => p
  p.clear.extend cmds

end Pattern

/-- The loop of `assert_permutation` (`pattern.py:2012-2016`): each user node must still be in the
set. -/
def assertPermutationLoop : List ℕ → Finset ℕ → Except PyErr Unit
  | [], _ => .ok ()
  | n :: user, s => if n ∈ s then assertPermutationLoop user (s.erase n) else .error .patternError

/-- `pattern.py:2007-2016` `assert_permutation`. -/
def assertPermutation (original user : List ℕ) : Except PyErr Unit :=
  if user.toFinset ≠ original.toFinset then .error .patternError
  else assertPermutationLoop user user.toFinset

namespace Pattern

/-- `pattern.py:415-425` `Pattern.reorder_output_nodes`. -/
def reorderOutputNodes (p : Pattern) (outputs : List ℕ) : Except PyErr Pattern := do
  assertPermutation p.outputs outputs
  return { p with outputs := outputs }

/-- `pattern.py:88-120` `Pattern.__init__(input_nodes, cmds, output_nodes)`. -/
def new (inputs : List ℕ) (cmds : List Command) (outputs : Option (List ℕ)) :
    Except PyErr Pattern :=
  let p := (empty inputs).extend cmds
  match outputs with
  | none => .ok p
  | some o => p.reorderOutputNodes o

/-- `pattern.py:1206-1212` `Pattern.nodes`. -/
def nodes (p : Pattern) : Finset ℕ := p.inputs.toFinset ∪ (p.seq.filterMap Command.prepared?).toFinset

end Pattern

/-- `while candidate in used_indices: candidate += 1` (`pattern.py:238-239`). -/
def nextFree (used : Finset ℕ) (candidate : ℕ) : ℕ :=
  if candidate ∈ used then nextFree used (candidate + 1) else candidate
termination_by (used.filter (candidate ≤ ·)).card
decreasing_by
  apply Finset.card_lt_card
  rw [Finset.ssubset_iff_of_subset]
  · exact ⟨candidate, by simpa using ‹_›, by simp⟩
  · intro x hx; simp at hx ⊢; exact ⟨hx.1, by omega⟩

/-- The loop of `node_mapping` (`pattern.py:235-241`). -/
def nodeMappingLoop (used preserves : Finset ℕ) :
    List ℕ → PyDict ℕ ℕ → ℕ → PyDict ℕ ℕ
  | [], result, _ => result
  | node :: nodes, result, candidate =>
    if PyDict.contains result node || decide (node ∈ preserves) then
      nodeMappingLoop used preserves nodes result candidate
    else
      let candidate := nextFree used candidate
      nodeMappingLoop used preserves nodes (result.set node candidate) (candidate + 1)

namespace Pattern

/-- `pattern.py:171-242` `Pattern.node_mapping` (`mapping=None` is the empty mapping, `avoids=None`
and `preserves=None` are empty).  `_duplicates_in_mapping` is nonempty iff two keys share a value. -/
def nodeMapping (p : Pattern) (mapping : PyDict ℕ ℕ) (start : ℕ) (avoids preserves : Finset ℕ) :
    Except PyErr (PyDict ℕ ℕ) :=
  let nodes := p.nodes
  if ¬ ∀ k ∈ PyDict.keys mapping, k ∈ nodes then .error .valueError
  else if ¬ (mapping.map Prod.snd).Nodup then .error .valueError
  else
    let used := avoids ∪ (mapping.map Prod.snd).toFinset ∪ preserves
    .ok (nodeMappingLoop used preserves (nodes.sort (· ≤ ·)) mapping start)

/-- `mapping.get(node, node)` (`pattern.py:276`). -/
def applyMapping (mapping : PyDict ℕ ℕ) (node : ℕ) : ℕ := (PyDict.get? mapping node).getD node

/-- `pattern.py:278-283` `Pattern.reindex(func, copy=True)` with a function. -/
def reindexFunc (p : Pattern) (f : ℕ → ℕ) : Except PyErr Pattern :=
  let newPattern := (empty (p.inputs.map f)).extend (p.seq.map (Command.reindex f))
  newPattern.reorderOutputNodes (p.outputs.map f)

/-- `pattern.py:244-283` `Pattern.reindex(mapping, copy=True)`. -/
def reindex (p : Pattern) (mapping : Option (PyDict ℕ ℕ)) : Except PyErr Pattern :=
  match mapping with
  | none => do
    let mapping ← p.nodeMapping [] 0 ∅ ∅
    p.reindexFunc (applyMapping mapping)
  | some mapping => p.reindexFunc (applyMapping mapping)

/-- `pattern.py:284-287` `Pattern.reindex(mapping)` in place: the counter `__n_node` is left as it
was. -/
def reindexInPlace (p : Pattern) (mapping : Option (PyDict ℕ ℕ)) : Except PyErr Pattern := do
  let newPattern ← p.reindex mapping
  return { p with inputs := newPattern.inputs, seq := newPattern.seq, outputs := newPattern.outputs }

/-- `max((*nodes_p1, *mapping.values())) + 1` (`pattern.py:361`); `max` of an empty tuple raises
`ValueError`. -/
def composeShift (s : Finset ℕ) : Except PyErr ℕ :=
  if s = ∅ then .error .valueError else .ok (s.sup id + 1)

/-- `pattern.py:369-380`: the outputs of a composition (`other` is already renamed); `io_mapping[n]`
raises `KeyError` if absent. -/
def composeOutputNodes (self other : Pattern) (merged : Finset ℕ) (preserveMapping : Bool) :
    Except PyErr (List ℕ) :=
  if (preserveMapping &&
      decide (merged.card = other.inputs.length ∧ other.inputs.length = other.outputs.length)) = true then
    self.outputs.mapM (fun n => if n ∈ merged then
        match PyDict.get? ((other.inputs.zip other.outputs).foldl (fun d kv => PyDict.set d kv.1 kv.2) []) n with
        | some o => Except.ok o
        | none => Except.error .keyError
      else Except.ok n)
  else Except.ok (self.outputs.filter (fun n => n ∉ merged) ++ other.outputs)

/-- `pattern.py:289-386` `Pattern.compose` (warnings omitted). -/
def compose (self other : Pattern) (mapping : PyDict ℕ ℕ) (preserveMapping : Bool) :
    Except PyErr (Pattern × PyDict ℕ ℕ) := do
  let nodesP1 := self.nodes
  let nodesP2 := other.nodes
  if ¬ ∀ k ∈ PyDict.keys mapping, k ∈ nodesP2 then throw .patternError
  let valuesSet := (mapping.map Prod.snd).toFinset
  let o1Set := self.outputs.toFinset
  let i2Set := other.inputs.toFinset
  if mapping.length ≠ valuesSet.card then throw .patternError
  if valuesSet ∩ (nodesP1 \ o1Set) ≠ ∅ then throw .patternError
  if ¬ ∀ kv ∈ mapping, ¬ (kv.2 ∈ o1Set ∧ kv.1 ∉ i2Set) then throw .patternError
  let shift ← composeShift (nodesP1 ∪ valuesSet)
  let mappingComplete ← other.nodeMapping mapping shift ∅ ∅
  let other ← other.reindex (some mappingComplete)
  let merged := valuesSet ∩ self.outputs.toFinset
  let inputs := self.inputs ++ other.inputs.filter (fun n => n ∉ merged)
  let outputs ← composeOutputNodes self other merged preserveMapping
  let p ← Pattern.new inputs (self.seq ++ other.seq) (some outputs)
  return (p, mappingComplete)

end Pattern

/-- `pattern.py:1963-1979` `RunnabilityErrorReason`. -/
inductive RunnabilityReason
  | alreadyActive | alreadyMeasured | notYetActive | notYetMeasured | domainSelfLoop
  deriving DecidableEq, Repr

/-- State of the loop of `check_runnability` (`pattern.py:1647-1648`). -/
structure RunState where
  active : Finset ℕ
  measured : Finset ℕ

namespace RunState

/-- `pattern.py:1650-1654` `check_active`. -/
def checkActive (st : RunState) (n : ℕ) : Except RunnabilityReason Unit :=
  if n ∈ st.measured then .error .alreadyMeasured
  else if n ∉ st.active then .error .notYetActive
  else .ok ()

/-- `pattern.py:1656-1658` and `1684-1685` `check_measured` for every node of a domain (the reported
node, which depends on Python's set iteration order, is not modelled). -/
def checkMeasured (st : RunState) (domain : Finset ℕ) : Except RunnabilityReason Unit :=
  if domain ⊆ st.measured then .ok () else .error .notYetMeasured

/-- `pattern.py:1681-1685`: one domain of a measurement. -/
def checkDomain (st : RunState) (n : ℕ) (domain : Finset ℕ) : Except RunnabilityReason Unit :=
  if n ∈ domain then .error .domainSelfLoop else st.checkMeasured domain

/-- `pattern.py:1661-1693`: the body of the loop of `check_runnability`. -/
def step (st : RunState) (cmd : Command) : Except RunnabilityReason RunState :=
  match cmd with
  | .N n _ =>
    if n ∈ st.active then .error .alreadyActive
    else if n ∈ st.measured then .error .alreadyMeasured
    else .ok { st with active := insert n st.active }
  | .E u v => do
    st.checkActive u
    st.checkActive v
    return st
  | .M n _ s t => do
    st.checkActive n
    st.checkDomain n s
    st.checkDomain n t
    return ⟨st.active.erase n, insert n st.measured⟩
  | .X n d => do
    st.checkActive n
    st.checkMeasured d
    return st
  | .Z n d => do
    st.checkActive n
    st.checkMeasured d
    return st
  | .C n _ => do
    st.checkActive n
    return st
  | .S _ _ => .ok st
  | .T => .ok st

/-- The loop of `check_runnability`. -/
def run (st : RunState) : List Command → Except RunnabilityReason RunState
  | [] => .ok st
  | c :: l => do
    let st ← st.step c
    run st l

end RunState

namespace Pattern

/-- `pattern.py:1633-1693` `Pattern.check_runnability`. -/
def checkRunnability (p : Pattern) : Except RunnabilityReason Unit := do
  let _ ← RunState.run ⟨p.inputs.toFinset, ∅⟩ p.seq
  return ()

/-- `space_minimization.py:40-49`: the loop of `pattern_max_space`, over integers (the counter may
go negative on patterns that are not runnable). -/
def maxSpaceLoop : List Command → ℤ → ℤ → ℤ
  | [], _, maxActive => maxActive
  | .N _ _ :: l, numActive, maxActive => maxSpaceLoop l (numActive + 1) (max (numActive + 1) maxActive)
  | .M _ _ _ _ :: l, numActive, maxActive => maxSpaceLoop l (numActive - 1) maxActive
  | _ :: l, numActive, maxActive => maxSpaceLoop l numActive maxActive

/-- `space_minimization.py:24-49` and `pattern.py:1356-1367` `Pattern.max_space`. -/
def maxSpace (p : Pattern) : ℤ := maxSpaceLoop p.seq p.inputs.length p.inputs.length

/-- `pattern.py:1377-1387`: the loop of `space_list`. -/
def spaceListLoop : List Command → ℤ → List ℤ
  | [], _ => []
  | .N _ _ :: l, nodes => (nodes + 1) :: spaceListLoop l (nodes + 1)
  | .M _ _ _ _ :: l, nodes => (nodes - 1) :: spaceListLoop l (nodes - 1)
  | _ :: l, nodes => spaceListLoop l nodes

/-- `pattern.py:1369-1387` `Pattern.space_list`: the counter starts at 0, whatever the inputs. -/
def spaceList (p : Pattern) : List ℤ := spaceListLoop p.seq 0

/-- `pattern.py:1480-1488` `Pattern.remove_input_nodes`. -/
noncomputable def removeInputNodes (p : Pattern) : Pattern :=
  { p with inputs := [], seq := p.inputs.map (fun n => .N n PlanarState.plus) ++ p.seq }

/-- Command kinds (`command.py:30-42`). -/
inductive Kind
  | N | E | M | X | Z | C | S | T
  deriving DecidableEq, Repr

/-- `cmd.kind` -/
def kindOf : Command → Kind
  | .N _ _ => .N
  | .M _ _ _ _ => .M
  | .E _ _ => .E
  | .C _ _ => .C
  | .X _ _ => .X
  | .Z _ _ => .Z
  | .S _ _ => .S
  | .T => .T

/-- `pattern.py:603-625` `Pattern.is_standard`: each `while` consumes a maximal block of the kinds;
reaching the end of the iterator (`StopIteration`) at any point answers `True`. -/
def isStandardSeq (l : List Command) (strict : Bool) : Bool :=
  let l := l.dropWhile (fun c => kindOf c = .N)
  let l := l.dropWhile (fun c => kindOf c = .E)
  let l := l.dropWhile (fun c => kindOf c = .M)
  let l := if strict then
      (l.dropWhile (fun c => kindOf c = .X || kindOf c = .Z)).dropWhile (fun c => kindOf c = .C)
    else l.dropWhile (fun c => kindOf c = .X || kindOf c = .Z || kindOf c = .C)
  l.isEmpty

/-- `pattern.py:590-625` `Pattern.is_standard`. -/
def isStandard (p : Pattern) (strict : Bool) : Bool := isStandardSeq p.seq strict

end Pattern

/-- Signals: `dict[int, set[int]]`. -/
abbrev SignalDict := PyDict ℕ (Finset ℕ)

/-- The set bound to a node, or the empty set (`signal_dict.get(node, [])`). -/
def SignalDict.at (d : SignalDict) (n : ℕ) : Finset ℕ := (PyDict.get? d n).getD ∅

/-- `pattern.py:687-697` `expand_domain`: `for node in domain & signal_dict.keys(): domain ^= ...`.
The set of nodes iterated over is computed before the loop, and symmetric difference is commutative
and associative, so Python's iteration order is immaterial: this is a commutative fold. -/
def expandDomain (d : SignalDict) (domain : Finset ℕ) : Finset ℕ :=
  (domain.filter (fun n => PyDict.contains d n)).fold symmDiff domain (fun n => SignalDict.at d n)

namespace Pattern

/-- `pattern.py:699-737`: the body of the loop of `shift_signals_direct`. -/
noncomputable def shiftStep (sig : SignalDict) (cmd : Command) : SignalDict × Command :=
  match cmd with
  | .M n m s t =>
    let s := expandDomain sig s
    let t := expandDomain sig t
    match m.toBloch.plane with
    | .XY => if t ≠ ∅ then (sig.set n t, .M n m s ∅) else (sig, .M n m s t)
    | .XZ => if s ≠ ∅ then (sig.set n s, .M n m ∅ (t ∆ s)) else (sig, .M n m s t)
    | .YZ => if s ≠ ∅ then (sig.set n s, .M n m ∅ t) else (sig, .M n m s t)
  | .X n d => (sig, .X n (expandDomain sig d))
  | .Z n d => (sig, .Z n (expandDomain sig d))
  | c => (sig, c)

/-- `pattern.py:699-738`: the loop of `shift_signals_direct`. -/
noncomputable def shiftLoop (sig : SignalDict) : List Command → SignalDict × List Command
  | [] => (sig, [])
  | c :: l =>
    let r := shiftStep sig c
    let rest := shiftLoop r.1 l
    (rest.1, r.2 :: rest.2)

/-- `pattern.py:683-738` `Pattern.shift_signals_direct`: the new pattern and the signals. -/
noncomputable def shiftSignalsDirect (p : Pattern) : Pattern × SignalDict :=
  let r := shiftLoop [] p.seq
  ({ p with seq := r.2 }, r.1)

end Pattern

/-- `pattern.py:2019-2043` `ExtractedSignal`, `extract_signal`: new s-domain, t-domain and signal. -/
def extractSignal (plane : Plane) (s t : Finset ℕ) : Finset ℕ × Finset ℕ × Finset ℕ :=
  match plane with
  | .XY => (s, ∅, t)
  | .XZ => (∅, s ∆ t, s)
  | .YZ => (∅, t, s)

/-- `pattern.py:2046-2075` `shift_outcomes`, for an outcome map defined on the nodes `outcomes`
mentions; `outcomes[i]` raises `KeyError` for a signal node without outcome. -/
def shiftOutcomes? (outcomes : PyDict ℕ Bool) (sig : SignalDict) : Option (PyDict ℕ Bool) :=
  outcomes.mapM (fun kv => do
    let s := SignalDict.at sig kv.1
    if ∀ i ∈ s, PyDict.contains outcomes i = true then
      let ones := (s.filter (fun i => PyDict.get? outcomes i = some true)).card
      return (kv.1, if ones % 2 = 1 then !kv.2 else kv.2)
    else none)

end Graphix
