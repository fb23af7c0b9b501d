import Verif.Model.Statevec

/-!
# Model of the state-vector simulation of patterns

`graphix/sim/base_backend.py` (`NodeIndex`, `DenseStateBackend`), `graphix/simulator.py`
(`DefaultMeasureMethod`, `PatternSimulator.run`) with the state-vector backend and no noise.
-/

namespace Graphix

/-- `sim/base_backend.py:216-233` `class NodeIndex`: the private `__dict` and `__list`. -/
structure NodeIndex where
  dict : PyDict ℕ ℕ
  list : List ℕ

namespace NodeIndex

/-- `sim/base_backend.py:318-321` `clear` (and `__init__`). -/
def clear : NodeIndex := ⟨[], []⟩

/-- `sim/base_backend.py:235-248` `__getitem__` (non-negative indices). -/
def getItem (idx : NodeIndex) (i : ℕ) : Except PyErr ℕ :=
  match idx.list[i]? with
  | some n => .ok n
  | none => .error .indexError

/-- `sim/base_backend.py:250-263` `index`. -/
def index (idx : NodeIndex) (node : ℕ) : Except PyErr ℕ :=
  match idx.dict.get? node with
  | some i => .ok i
  | none => .error .keyError

/-- `for index, node in enumerate(nodes, start): dict[node] = index`. -/
def enumerateSet (d : PyDict ℕ ℕ) (nodes : List ℕ) (start : ℕ) : PyDict ℕ ℕ :=
  match nodes with
  | [] => d
  | n :: nodes => enumerateSet (d.set n start) nodes (start + 1)

/-- `sim/base_backend.py:273-287` `extend`. -/
def extend (idx : NodeIndex) (nodes : List ℕ) : NodeIndex :=
  let base := idx.list.length
  let list := idx.list ++ nodes
  ⟨enumerateSet idx.dict (list.drop base) base, list⟩

/-- `sim/base_backend.py:289-301` `remove`. -/
def remove (idx : NodeIndex) (node : ℕ) : Except PyErr NodeIndex := do
  let index ← idx.index node
  let list := idx.list.eraseIdx index
  let dict := idx.dict.erase node
  return ⟨enumerateSet dict (list.drop index) index, list⟩

/-- `sim/base_backend.py:303-316` `swap`. -/
def swap (idx : NodeIndex) (i j : ℕ) : Except PyErr NodeIndex := do
  let nodeI ← idx.getItem i
  let nodeJ ← idx.getItem j
  let list := (idx.list.set i nodeJ).set j nodeI
  return ⟨(idx.dict.set nodeI j).set nodeJ i, list⟩

end NodeIndex

/-- What a run depends on besides the pattern and the input state.  The first argument is the number
of the step.

* `junk`: contents of memory freshly allocated by `np.empty`;
* `isPlus`: whether the state given to `N` is the object `BasicStates.PLUS`;
* `ordCz`, `ordOp`, `ordExp`, `ordProj`: the order in which the kernels run their iterations
  (`ordOp = none`: sequential kernel), given the number of qubits and the qubit;
* `sel`: the branch selector, given the outcomes so far, the node and the probability of outcome 0. -/
structure SimEnv where
  junk : ℕ → Buf
  isPlus : ℕ → Bool
  ordCz : ℕ → ℕ → List ℕ
  ordOp : ℕ → ℕ → ℕ → Option (List (ℕ × ℕ))
  ordExp : ℕ → ℕ → ℕ → List (ℕ × ℕ)
  ordProj : ℕ → ℕ → ℕ → List (ℕ × ℕ)
  sel : PyDict ℕ Bool → ℕ → ℝ → Except PyErr Bool

/-- State of a run: `backend.state`, `backend.node_index`, `measure_method.results`. -/
structure SimState where
  sv : Statevector
  idx : NodeIndex
  results : PyDict ℕ Bool

namespace SimState

/-- `sum(self.results[j] for j in domain)` (`simulator.py:179, 221-222`); the order of the iteration
over the set does not matter, a missing key is a `KeyError`. -/
def sumResults (results : PyDict ℕ Bool) : List ℕ → Except PyErr ℕ
  | [] => .ok 0
  | j :: l => do
    let r ← match results.get? j with
      | some r => Except.ok r
      | none => .error .keyError
    let s ← sumResults results l
    return r.toNat + s

/-- `simulator.py:171-179` `check_domain`. -/
def checkDomain (results : PyDict ℕ Bool) (domain : Finset ℕ) : Except PyErr Bool := do
  let s ← sumResults results (domain.sort (· ≤ ·))
  return decide (s % 2 = 1)

/-- `simulator.py:206-228` `DefaultMeasureMethod.describe_measurement`. -/
noncomputable def describeMeasurement (results : PyDict ℕ Bool) (measurement : Measurement)
    (sDomain tDomain : Finset ℕ) : Except PyErr Measurement := do
  let s ← sumResults results (sDomain.sort (· ≤ ·))
  let t ← sumResults results (tDomain.sort (· ≤ ·))
  let measurement := if s % 2 ≠ 0 then measurement.clifford Clifford.X else measurement
  let measurement := if t % 2 ≠ 0 then measurement.clifford Clifford.Z else measurement
  return measurement

/-- `sim/base_backend.py:779-797` `add_nodes` with one node (`simulator.py:79-83`). -/
noncomputable def addNode (env : SimEnv) (k : ℕ) (st : SimState) (node : ℕ) (s : PlanarState) : SimState :=
  { st with sv := st.sv.addNode (env.junk k) (env.isPlus k) s.vec, idx := st.idx.extend [node] }

/-- `sim/base_backend.py:800-810` `entangle_nodes`. -/
def entangleNodes (env : SimEnv) (k : ℕ) (st : SimState) (u v : ℕ) : Except PyErr SimState := do
  let target ← st.idx.index u
  let control ← st.idx.index v
  let sv ← st.sv.entangle (env.ordCz k st.sv.nqubit) target control
  return { st with sv := sv }

/-- `sim/base_backend.py:876-879, 882-885` `apply_single`, `apply_clifford`. -/
noncomputable def applySingle (env : SimEnv) (k : ℕ) (st : SimState) (node : ℕ) (op : Mat2) :
    Except PyErr SimState := do
  let index ← st.idx.index node
  let sv ← st.sv.evolveSingle (env.ordOp k st.sv.nqubit index) op index
  return { st with sv := sv }

/-- `sim/base_backend.py:813-856` `DenseStateBackend.measure`.  The expectation is computed before the
selector is called (the code computes it when the selector asks for it), with exact arithmetic
(`isclose(imag, 0)` is equality). -/
noncomputable def measureNode (env : SimEnv) (k : ℕ) (st : SimState) (node : ℕ) (m : Measurement) :
    Except PyErr (SimState × Bool) := do
  let loc ← st.idx.index node
  let expVal ← st.sv.expectationSingle (env.ordExp k st.sv.nqubit loc) (measureOperator m false) loc
  if expVal.im ≠ 0 then throw .assertionError
  let outcome ← env.sel st.results node expVal.re
  let sv ← st.sv.projectQubit (env.ordProj k st.sv.nqubit loc) (measureOperator m outcome) loc
  let idx ← st.idx.remove node
  return ({ st with sv := sv, idx := idx }, outcome)

/-- `simulator.py:451-475`: one command. -/
noncomputable def step (env : SimEnv) (k : ℕ) (st : SimState) : Command → Except PyErr SimState
  | .N n s => .ok (st.addNode env k n s)
  | .E u v => st.entangleNodes env k u v
  | .M n m s t => do
    -- `simulator.py:94-124` `MeasureMethod.measure`, `247-257` `store_measurement_outcome`
    let description ← describeMeasurement st.results m s t
    let (st, result) ← st.measureNode env k n description
    return { st with results := st.results.set n result }
  | .X n d => do
    if ← checkDomain st.results d then st.applySingle env k n Ops.X else return st
  | .Z n d => do
    if ← checkDomain st.results d then st.applySingle env k n Ops.Z else return st
  | .C n c => st.applySingle env k n c.matrix
  | .T => .ok st
  | .S _ _ => .error .valueError

/-- `simulator.py:449-478`: the loop over the commands, numbered from `k`. -/
noncomputable def loop (env : SimEnv) : ℕ → List Command → SimState → Except PyErr SimState
  | _, [], st => .ok st
  | k, c :: l, st => do
    let st ← st.step env k c
    loop env (k + 1) l st

/-- `[self.node_index.index(node) for node in output_nodes]` (`sim/base_backend.py:890`). -/
def indices (idx : NodeIndex) : List ℕ → Except PyErr (List ℕ)
  | [] => .ok []
  | n :: l => do
    let i ← idx.index n
    let is ← indices idx l
    return i :: is

/-- `sim/base_backend.py:888-892` `finalize`. -/
def finalize (st : SimState) (outputs : List ℕ) : Except PyErr SimState := do
  let perm ← indices st.idx outputs
  let sv ← st.sv.permute perm
  return { st with sv := sv, idx := NodeIndex.clear.extend outputs }

end SimState

/-- Input data (`sim/data.py`, `statevec.py:128-203`): a single state, one state per qubit, or a
normalised vector of amplitudes.  (`Statevector` data is like amplitudes; invalid types are not
modelled.) -/
inductive InputData
  | state (s : PlanarState)
  | states (l : List PlanarState)
  | amplitudes (l : List ℂ)

/-- `functools.reduce(np.kron, …)` (`statevec.py:182-185`), as amplitudes; `np.kron` of vectors of
length `2 ** n` and 2. -/
noncomputable def kronStates : List PlanarState → Buf
  | [] => fun _ => 1
  | s :: l => fun i => s.vec (decide (i / 2 ^ l.length % 2 = 1)) * kronStates l (i % 2 ^ l.length)

namespace Statevector

/-- `statevec.py:154-216` `Statevector(data, nqubit)`: an object of `nqubit` qubits. A list of
amplitudes of length `len` gives `bit_length(len) - 1 = log2 len` qubits, and only its norm is
checked besides. -/
noncomputable def init (data : InputData) (nqubit : ℕ) : Except PyErr Statevector :=
  match data with
  | .state s => .ok ⟨kronStates (List.replicate nqubit s), nqubit, nqubit⟩
  | .states l =>
    if l.length ≠ nqubit then .error .valueError else .ok ⟨kronStates l, nqubit, nqubit⟩
  | .amplitudes l =>
    if l = [] then
      if nqubit ≠ 0 then .error .valueError else .ok ⟨fun _ => 1, 0, 0⟩
    else if Nat.log2 l.length ≠ nqubit then .error .valueError
    else if (l.map Complex.normSq).sum ≠ 1 then .error .valueError
    else .ok ⟨fun i => l.getD i 0, nqubit, nqubit⟩

end Statevector

/-- `sim/statevec.py:829-832`, `simulator.py:575-576`: the initial backend, with a capacity of
`max_space` qubits (buffer `[1]`, then unspecified memory `junk`). -/
noncomputable def initialBackend (junk : Buf) (maxSpace : ℕ) : Statevector :=
  (Statevector.mk (fun _ => 1) 0 0).ensureCapacity junk maxSpace

/-- `sim/base_backend.py:779-797` `add_nodes(pattern.input_nodes, input_state)` on the initial backend of
capacity `max_space`; `plusObj` says that the input state is the object `BasicStates.PLUS` (the default), for
which `Statevec.add_nodes` (`statevec.py:293-300`) has a special case. -/
noncomputable def prepareInput (p : Pattern) (data : InputData) (plusObj : Bool) (junk : ℕ → Buf) :
    Except PyErr Statevector :=
  let sv := initialBackend (junk 0) p.maxSpace.toNat
  if p.inputs.length = 1 ∧ plusObj = true then .ok (sv.addNode (junk 1) true PlanarState.plus.vec)
  else do
    let other ← Statevector.init data p.inputs.length
    return sv.tensor (junk 1) other

/-- `simulator.py:396-479` `PatternSimulator.run(input_state)` on a fresh `"statevector"` backend, without
noise model. -/
noncomputable def simulate (env : SimEnv) (p : Pattern) (data : InputData) (plusObj : Bool) (junk : ℕ → Buf) :
    Except PyErr SimState := do
  let sv ← prepareInput p data plusObj junk
  let idx := NodeIndex.clear.extend p.inputs
  match p.checkRunnability with
  | .error _ => throw .patternError
  | .ok () => pure ()
  let st ← SimState.loop env 0 p.seq ⟨sv, idx, []⟩
  st.finalize p.outputs

end Graphix
