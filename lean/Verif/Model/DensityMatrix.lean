import Verif.Model.Tensor
import Verif.Model.Simulator
import Verif.Model.Channels
import Verif.Model.Noise

/-!
# Model of `graphix/sim/density_matrix.py` and of pattern simulation with the density-matrix backend

`sim/density_matrix.py`, `sim/base_backend.py` (`DenseStateBackend`), `simulator.py` (`PatternSimulator.run` with the
density-matrix backend, with or without noise model). Entries are exact complex numbers: `np.allclose` and `math.isclose` are
equality, symbolic entries and the other dtypes are not modelled except where said.
-/

namespace Graphix

namespace NpMat

/-- `np.array(rows)` of a list of rows. -/
def ofRows (rows : List (List ℂ)) : NpMat :=
  ⟨rows.length, (rows.headD []).length, fun i j => (rows.getD i []).getD j 0⟩

/-- `linalg_validations.py:27-37` `is_qubitop`. -/
def IsQubitOp (m : NpMat) : Prop := m.rows = m.cols ∧ ∃ n, m.rows = 2 ^ n

/-- `linalg_validations.py:40-66` `is_hermitian`, `is_psd` (eigenvalues are non-negative: `v† m v ≥ 0` for all `v`). -/
def IsPsd (m : NpMat) : Prop :=
  (∀ i < m.rows, ∀ j < m.rows, m.entry i j = star (m.entry j i)) ∧
  ∀ v : ℕ → ℂ, 0 ≤ (∑ i ∈ Finset.range m.rows, ∑ j ∈ Finset.range m.rows, star (v i) * m.entry i j * v j).re

end NpMat

namespace Ops

/-- `ops.py:36-45` `CZ`. -/
def npCZ : NpMat := .ofRows [[1, 0, 0, 0], [0, 1, 0, 0], [0, 0, 1, 0], [0, 0, 0, -1]]

/-- `ops.py:46-55` `CNOT`. -/
def npCNOT : NpMat := .ofRows [[1, 0, 0, 0], [0, 1, 0, 0], [0, 0, 0, 1], [0, 0, 1, 0]]

/-- `ops.py:56-65` `SWAP`. -/
def npSWAP : NpMat := .ofRows [[1, 0, 0, 0], [0, 0, 1, 0], [0, 1, 0, 0], [0, 0, 0, 1]]

end Ops

/-- `channels.py:80-134` `KrausChannel`, as the list of `(coef, operator)` over which `apply_channel` iterates. -/
abbrev NpChannel := List (ℂ × NpMat)

/-- The numpy operators of a channel on one qubit. -/
def KrausChannel.toNp1 (ch : KrausChannel Bool) : NpChannel := ch.data.map fun k => (k.coef, .ofMat2 k.operator)

/-- The numpy operators of a channel on two qubits: row `(x, y)` of a Kronecker product of 2x2 matrices is row `2 x + y`. -/
def KrausChannel.toNp2 (ch : KrausChannel (Bool × Bool)) : NpChannel :=
  ch.data.map fun k =>
    (k.coef, ⟨4, 4, fun i j => k.operator (decide (2 ≤ i), decide (i % 2 = 1)) (decide (2 ≤ j), decide (j % 2 = 1))⟩)

/-- `Noise.to_krauschannel` (`depolarising.py:46-49, 73-76`, `amplitude_damping.py:50-53, 77-80`); `user` gives the channels of the
user-defined noises. -/
noncomputable def Noise.toKrausChannel (user : ℕ → Except PyErr NpChannel) : Noise → Except PyErr NpChannel
  | .depolarising p => do let ch ← depolarisingChannel p; return ch.toNp1
  | .twoQubitDepolarising p => do let ch ← twoQubitDepolarisingChannel p; return ch.toNp2
  | .amplitudeDamping p => do let ch ← amplitudeDampingChannel p; return ch.toNp1
  | .twoQubitAmplitudeDamping p => do let ch ← twoQubitAmplitudeDampingChannel p; return ch.toNp2
  | .other id _ => user id

/-- Data of a density matrix (`density_matrix.py:48-113`): what `Statevector` accepts, or a matrix given by its rows, or a
`DensityMatrix`. `cplx` says that numpy gives the matrix the dtype `complex128`. -/
inductive DMData
  | pure (d : InputData)
  | matrix (cplx : Bool) (m : NpMat)
  | density (m : NpMat)

/-- `density_matrix.py:43-46` `class DensityMatrix`. -/
structure DensityMatrix where
  rho : NpMat

namespace DensityMatrix

/-- `density_matrix.py:115-122` `nqubit`: `rho.shape[0].bit_length() - 1`. -/
def nqubit (dm : DensityMatrix) : ℕ := Nat.log2 dm.rho.rows

open scoped Classical in
/-- `density_matrix.py:48-113` `DensityMatrix(data, nqubit)`. -/
noncomputable def init (data : DMData) (nqubit : ℕ) : Except PyErr DensityMatrix :=
  match data with
  | .density m => if m.rows ≠ 2 ^ nqubit ∨ m.cols ≠ 2 ^ nqubit then .error .valueError else .ok ⟨m⟩
  | .matrix _ m =>
    if ¬ m.IsQubitOp then .error .valueError
    else if m.rows ≠ 2 ^ nqubit ∨ m.cols ≠ 2 ^ nqubit then .error .valueError
    else if m.trace ≠ 1 then .error .valueError
    else if ¬ m.IsPsd then .error .valueError
    else .ok ⟨m⟩
  | .pure d => do
    let sv ← Statevector.init d nqubit
    return ⟨.outer (2 ^ sv.nqubit) sv.psi (fun i => star (sv.psi i))⟩

/-- `density_matrix.py:210-213, 247-261`: the common part of `evolve_single` (`qubits = [qubit]`) and `evolve`.
`op` is an operator on `len(qubits)` qubits. -/
noncomputable def evolveCore (dm : DensityMatrix) (op : NpMat) (qubits : List ℕ) : DensityMatrix :=
  let k := qubits.length
  let n := dm.nqubit
  let t := ((op.reshape k).tensordot (dm.rho.reshape n) ((List.range k).map (k + ·)) qubits)
  let t := t.tensordot (op.dagger.reshape k) (qubits.map (· + n)) (List.range k)
  let t := t.moveaxis ((List.range k).map (fun (i : ℕ) => (i : ℤ)) ++ (List.range k).map (fun (i : ℕ) => -(i + 1 : ℤ)))
    (qubits.map (fun (i : ℕ) => (i : ℤ)) ++ qubits.reverse.map (fun (i : ℕ) => (i + n : ℤ)))
  ⟨.ofTensor n t⟩

/-- `density_matrix.py:195-213` `evolve_single` (`qubit` is not negative). -/
noncomputable def evolveSingle (dm : DensityMatrix) (op : NpMat) (qubit : ℕ) : Except PyErr DensityMatrix :=
  if ¬ qubit < dm.nqubit then .error .assertionError
  else if op.rows ≠ 2 ∨ op.cols ≠ 2 then .error .valueError
  else .ok (dm.evolveCore op [qubit])

/-- `density_matrix.py:215-261` `evolve`. -/
noncomputable def evolve (dm : DensityMatrix) (op : NpMat) (qubits : List ℕ) : Except PyErr DensityMatrix :=
  if op.rows ≠ op.cols then .error .valueError
  else if op.rows ≠ 2 ^ Nat.log2 op.rows then .error .valueError
  else if Nat.log2 op.rows ≠ qubits.length then .error .valueError
  else if ¬ ∀ i ∈ qubits, i < dm.nqubit then .error .valueError
  else if ¬ qubits.Nodup then .error .valueError
  else .ok (dm.evolveCore op qubits)

open scoped Classical in
/-- `density_matrix.py:354-365` `normalize`: in place. When the trace is zero numpy only warns and fills the matrix with NaN; the model
stops with an error. -/
noncomputable def normalize (dm : DensityMatrix) : Except PyErr DensityMatrix :=
  if dm.rho.trace = 0 then .error .zeroDivisionError
  else .ok ⟨{ dm.rho with entry := fun i j => dm.rho.entry i j / dm.rho.trace }⟩

/-- `density_matrix.py:263-290` `expectation_single`. `copy.copy(self)` shares the array, that `normalize` modifies in place: the
state is normalised too. Returns the new state and the value. -/
noncomputable def expectationSingle (dm : DensityMatrix) (op : NpMat) (qubit : ℕ) : Except PyErr (DensityMatrix × ℂ) :=
  if ¬ qubit < dm.nqubit then .error .valueError
  else if op.rows ≠ 2 ∨ op.cols ≠ 2 then .error .valueError
  else do
    let st1 ← dm.normalize
    let n := dm.nqubit
    let t := (op.reshape 1).tensordot (st1.rho.reshape n) [1] [qubit]
    let t := t.moveaxis [0] [(qubit : ℤ)]
    return (st1, (NpMat.ofTensor n t).trace)

/-- `density_matrix.py:296-310` `tensor`; `cplx` says that the other matrix has dtype `complex128` (`kron` refuses operands of
different types). -/
noncomputable def tensor (dm : DensityMatrix) (cplx : Bool) (other : DensityMatrix) : Except PyErr DensityMatrix :=
  if cplx then .ok ⟨dm.rho.kron other.rho⟩ else .error .typeError

/-- The dtype of `DensityMatrix(data).rho`. -/
def dataCplx : DMData → Bool
  | .matrix c _ => c
  | _ => true

/-- `density_matrix.py:166-193` `add_nodes`. -/
noncomputable def addNodes (dm : DensityMatrix) (nqubit : ℕ) (data : DMData) : Except PyErr DensityMatrix := do
  let dmToAdd ← init data nqubit
  dm.tensor (dataCplx data) dmToAdd

/-- `density_matrix.py:312-320` `cnot`. -/
noncomputable def cnot (dm : DensityMatrix) (q1 q2 : ℕ) : Except PyErr DensityMatrix := dm.evolve Ops.npCNOT [q1, q2]

/-- `density_matrix.py:322-331` `swap`. -/
noncomputable def swap (dm : DensityMatrix) (q1 q2 : ℕ) : Except PyErr DensityMatrix := dm.evolve Ops.npSWAP [q1, q2]

/-- `density_matrix.py:344-352` `entangle`. -/
noncomputable def entangle (dm : DensityMatrix) (q1 q2 : ℕ) : Except PyErr DensityMatrix := dm.evolve Ops.npCZ [q1, q2]

/-- `density_matrix.py:333-342` `permute`. -/
def permute (dm : DensityMatrix) (perm : List ℕ) : Except PyErr DensityMatrix := do
  let n := dm.nqubit
  Statevector.checkPermutation perm n
  let permCols := perm.map (· + n)
  return ⟨.ofTensor n ((dm.rho.reshape n).transpose (perm ++ permCols))⟩

/-- `density_matrix.py:373-396` `ptrace` with a list. Repeated indices are refused by `np.tensordot` (`ValueError`). -/
noncomputable def ptrace (dm : DensityMatrix) (qargs : List ℕ) : Except PyErr DensityMatrix :=
  let n := dm.nqubit
  let k := qargs.length
  if ¬ 0 < n then .error .assertionError
  else if ¬ ∀ q ∈ qargs, q < n then .error .assertionError
  else if ¬ qargs.Nodup then .error .valueError
  else
    let op := (NpMat.eye (2 ^ k)).reshape k
    .ok ⟨.ofTensor (n - k) (op.tensordot (dm.rho.reshape n) (List.range (2 * k)) (qargs ++ qargs.map (n + ·)))⟩

/-- `density_matrix.py:367-371` `remove_qubit`. -/
noncomputable def removeQubit (dm : DensityMatrix) (qubit : ℕ) : Except PyErr DensityMatrix := do
  let dm ← dm.ptrace [qubit]
  dm.normalize

/-- `sim/base_backend.py:450-464` `project_qubit`. -/
noncomputable def projectQubit (dm : DensityMatrix) (op : NpMat) (qubit : ℕ) : Except PyErr DensityMatrix := do
  let dm ← dm.evolveSingle op qubit
  dm.removeQubit qubit

open scoped Classical in
/-- `density_matrix.py:398-410` `fidelity` with the state vector `psi` (of the same size). -/
noncomputable def fidelity (dm : DensityMatrix) (psi : ℕ → ℂ) : Except PyErr ℝ :=
  let result := ∑ i ∈ Finset.range dm.rho.rows, star (psi i) * ∑ j ∈ Finset.range dm.rho.cols, dm.rho.entry i j * psi j
  if result.im ≠ 0 then .error .assertionError else .ok result.re

/-- `density_matrix.py:442-445`: the loop of `apply_channel`, from `acc`. -/
noncomputable def channelLoop (dm : DensityMatrix) (qargs : List ℕ) : NpChannel → NpMat → Except PyErr NpMat
  | [], acc => .ok acc
  | (coef, op) :: ch, acc => do
    let d ← dm.evolve op qargs
    channelLoop dm qargs ch { acc with entry := fun i j => acc.entry i j + coef * star coef * d.rho.entry i j }

open scoped Classical in
/-- `density_matrix.py:416-451` `apply_channel`. -/
noncomputable def applyChannel (dm : DensityMatrix) (channel : NpChannel) (qargs : List ℕ) : Except PyErr DensityMatrix := do
  let result ← dm.channelLoop qargs channel ⟨2 ^ dm.nqubit, 2 ^ dm.nqubit, fun _ _ => 0⟩
  if result.trace ≠ 1 then throw .valueError
  return ⟨result⟩

end DensityMatrix

/-- What a run depends on besides the pattern and the input: the branch selector, given the outcomes recorded so far, the node and the
probability of outcome 0; the random draws of `confuse_result`; the channels of user-defined noises. -/
structure DMEnv where
  sel : PyDict ℕ Bool → ℕ → ℝ → Except PyErr Bool
  draw : ℕ → ℝ
  user : ℕ → Except PyErr NpChannel

/-- State of a run: `backend.state`, `backend.node_index`, `measure_method.results`, and the number of draws made by
`confuse_result`. -/
structure DMState where
  dm : DensityMatrix
  idx : NodeIndex
  results : PyDict ℕ Bool
  draws : ℕ

namespace DMState

/-- `sim/base_backend.py:800-810` `entangle_nodes`. -/
noncomputable def entangleNodes (st : DMState) (u v : ℕ) : Except PyErr DMState := do
  let target ← st.idx.index u
  let control ← st.idx.index v
  let dm ← st.dm.entangle target control
  return { st with dm := dm }

/-- `sim/base_backend.py:876-885` `apply_single`, `apply_clifford`. -/
noncomputable def applySingle (st : DMState) (node : ℕ) (op : Mat2) : Except PyErr DMState := do
  let index ← st.idx.index node
  let dm ← st.dm.evolveSingle (.ofMat2 op) index
  return { st with dm := dm }

/-- `sim/base_backend.py:779-797` `add_nodes` with one node (`simulator.py:79-83`). -/
noncomputable def addNode (st : DMState) (node : ℕ) (s : PlanarState) : Except PyErr DMState := do
  let dm ← st.dm.addNodes 1 (.pure (.state s))
  return { st with dm := dm, idx := st.idx.extend [node] }

open scoped Classical in
/-- `sim/base_backend.py:813-856` `measure`. The expectation is computed before the selector is called (the code computes it when the
selector asks for it). -/
noncomputable def measureNode (env : DMEnv) (st : DMState) (node : ℕ) (m : Measurement) : Except PyErr (DMState × Bool) := do
  let loc ← st.idx.index node
  let (dm, expVal) ← st.dm.expectationSingle (.ofMat2 (measureOperator m false)) loc
  if expVal.im ≠ 0 then throw .assertionError
  let outcome ← env.sel st.results node expVal.re
  let dm ← dm.projectQubit (.ofMat2 (measureOperator m outcome)) loc
  let idx ← st.idx.remove node
  return ({ st with dm := dm, idx := idx }, outcome)

/-- `sim/base_backend.py:864-874` `apply_noise`, `density_matrix.py:453-465`. -/
noncomputable def applyNoise (env : DMEnv) (st : DMState) (a : ApplyNoise) : Except PyErr DMState := do
  let is ← SimState.indices st.idx a.nodes
  let channel ← a.noise.toKrausChannel env.user
  let dm ← st.dm.applyChannel channel is
  return { st with dm := dm }

/-- `simulator.py:451-475`: one command; `confuse` is `noise_model.confuse_result`, if there is a noise model. -/
noncomputable def step (env : DMEnv) (confuse : Option ((ℕ → ℝ) → ℕ → Bool → Bool × ℕ)) (st : DMState) :
    CmdOrNoise → Except PyErr DMState
  | .cmd (.N n s) => st.addNode n s
  | .cmd (.E u v) => st.entangleNodes u v
  | .cmd (.M n m s t) => do
    -- `simulator.py:94-124` `MeasureMethod.measure`, `247-257` `store_measurement_outcome`
    let description ← SimState.describeMeasurement st.results m s t
    let (st, result) ← st.measureNode env n description
    let (result, draws) := match confuse with
      | none => (result, st.draws)
      | some f => f env.draw st.draws result
    return { st with results := st.results.set n result, draws := draws }
  | .cmd (.X n d) => do
    if ← SimState.checkDomain st.results d then st.applySingle n Ops.X else return st
  | .cmd (.Z n d) => do
    if ← SimState.checkDomain st.results d then st.applySingle n Ops.Z else return st
  | .cmd (.C n c) => st.applySingle n c.matrix
  | .cmd .T => .ok st
  | .cmd (.S _ _) => .error .valueError
  | .noise a =>
    match a.domain with
    | none => st.applyNoise env a
    | some d => do if ← SimState.checkDomain st.results d then st.applyNoise env a else return st

/-- `simulator.py:449-478`: the loop over the commands. -/
noncomputable def loop (env : DMEnv) (confuse : Option ((ℕ → ℝ) → ℕ → Bool → Bool × ℕ)) :
    List CmdOrNoise → DMState → Except PyErr DMState
  | [], st => .ok st
  | c :: l, st => do
    let st ← st.step env confuse c
    loop env confuse l st

/-- `sim/base_backend.py:888-892` `finalize`. -/
def finalize (st : DMState) (outputs : List ℕ) : Except PyErr DMState := do
  let perm ← SimState.indices st.idx outputs
  let dm ← st.dm.permute perm
  return { st with dm := dm, idx := NodeIndex.clear.extend outputs }

end DMState

/-- `density_matrix.py:492-496`: the initial state, `DensityMatrix(nqubit=0)`: `[[1]]`. -/
noncomputable def initialDM : DensityMatrix := ⟨.outer 1 (fun _ => 1) (fun _ => 1)⟩

/-- `simulator.py:434-439`: the commands that are simulated. -/
def noisySequence (p : Pattern) : Option NoiseModel → Except PyErr (List CmdOrNoise)
  | none => .ok (p.seq.map .cmd)
  | some nm => do
    let pre ← nm.inputNodes p.inputs
    let rest ← nm.transpile (p.seq.map .cmd)
    return pre ++ rest

/-- `simulator.py:396-479` `PatternSimulator.run(input_state)` on a fresh `"densitymatrix"` backend. -/
noncomputable def simulateDM (env : DMEnv) (p : Pattern) (noise : Option NoiseModel) (data : DMData) : Except PyErr DMState := do
  let dm ← initialDM.addNodes p.inputs.length data
  let idx := NodeIndex.clear.extend p.inputs
  let seq ← noisySequence p noise
  match p.checkRunnability with
  | .error _ => throw .patternError
  | .ok () => pure ()
  let st ← DMState.loop env (noise.map (·.confuseResult)) seq ⟨dm, idx, [], 0⟩
  st.finalize p.outputs

end Graphix
