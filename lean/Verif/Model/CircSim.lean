import Verif.Model.DensityMatrix
import Verif.Model.Circuit

/-!
# Model of `Circuit.simulate` (`graphix/transpiler.py`) with the state-vector and density-matrix backends

Also `Statevector.evolve`, `expectation_value`, `fidelity`, `to_dict` (`graphix/sim/statevec.py`), and the matrices of `graphix/ops.py`
used by the simulation of circuits. Backends given by the user (already instantiated) are not modelled.
-/

namespace Graphix

namespace NdArray

/-- `np.einsum(a, aIdx, b, bIdx, resIdx)` (numpy): the axes of the operands and of the result are labelled; the labels that are not
labels of the result are summed over. -/
noncomputable def einsum (a : NdArray) (aIdx : List ℕ) (b : NdArray) (bIdx resIdx : List ℕ) : NdArray where
  ndim := resIdx.length
  at' := fun idx => ∑ S ∈ ((aIdx ++ bIdx).toFinset \ resIdx.toFinset).powerset,
    a.at' (aIdx.map fun lab => if lab ∈ resIdx then idx.getD (resIdx.idxOf lab) false else decide (lab ∈ S)) *
      b.at' (bIdx.map fun lab => if lab ∈ resIdx then idx.getD (resIdx.idxOf lab) false else decide (lab ∈ S))

/-- `psi.reshape((2,) * n)` of a vector of length `2 ** n`. -/
def ofVec (n : ℕ) (psi : Buf) : NdArray := ⟨n, fun idx => psi (ofBits idx)⟩

end NdArray

namespace NpMat

/-- `a @ b`. -/
noncomputable def matmul (a b : NpMat) : NpMat := ⟨a.rows, b.cols, fun i j => ∑ k ∈ Finset.range a.cols, a.entry i k * b.entry k j⟩

end NpMat

namespace Ops

/-- `ops.py:66-79` `CCX`. -/
def npCCX : NpMat := .ofRows [[1, 0, 0, 0, 0, 0, 0, 0], [0, 1, 0, 0, 0, 0, 0, 0], [0, 0, 1, 0, 0, 0, 0, 0], [0, 0, 0, 1, 0, 0, 0, 0],
  [0, 0, 0, 0, 1, 0, 0, 0], [0, 0, 0, 0, 0, 1, 0, 0], [0, 0, 0, 0, 0, 0, 0, 1], [0, 0, 0, 0, 0, 0, 1, 0]]

/-- `ops.py:208-226` `Ops.rzz`. -/
noncomputable def npRzz (θ : ℝ) : NpMat := (npCNOT.matmul ((NpMat.ofMat2 1).kron (.ofMat2 (Ops.rz θ)))).matmul npCNOT

end Ops

namespace Statevector

/-- `statevec.py:389-391`: the labels of the result, `res_idx[s] = out_idx[i]` for the `i`-th target `s`. -/
def resIdx (n : ℕ) (qubits : List ℕ) : List ℕ :=
  qubits.zipIdx.foldl (fun res p => res.set p.1 (n + p.2)) (List.range n)

/-- `statevec.py:362-394` `evolve`. `op.reshape` raises `ValueError` when the size is wrong, `res_idx[s]` raises `IndexError` when a
target is out of range. Repeated targets are not checked. -/
noncomputable def evolve (sv : Statevector) (op : NpMat) (qubits : List ℕ) : Except PyErr Statevector :=
  let nq := qubits.length
  let n := sv.nqubit
  if op.rows * op.cols ≠ 2 ^ (2 * nq) then .error .valueError
  else if ¬ ∀ q ∈ qubits, q < n then .error .indexError
  else
    let t := NdArray.einsum (op.reshape nq) ((List.range nq).map (n + ·) ++ qubits) (.ofVec n sv.psi) (List.range n) (resIdx n qubits)
    .ok { sv with psi := fun i => if i < 2 ^ n then t.at' (toBits n i) else sv.psi i }

/-- `statevec.py:396-415` `expectation_value`: `Statevector(data=self.flatten())` copies the amplitudes (and refuses those that are not
normalised). -/
noncomputable def expectationValue (sv : Statevector) (op : NpMat) (qubits : List ℕ) : Except PyErr ℂ :=
  if normSq sv.nqubit sv.psi ≠ 1 then .error .valueError
  else do
    let sv' ← (Statevector.mk sv.psi sv.nqubit sv.nqubit).evolve op qubits
    return ∑ i ∈ Finset.range (2 ^ sv.nqubit), star (sv.psi i) * sv'.psi i

/-- `statevec.py:552-569` `fidelity`: `np.dot` refuses vectors of different lengths. -/
noncomputable def fidelity (sv other : Statevector) : Except PyErr ℝ :=
  if sv.nqubit ≠ other.nqubit then .error .valueError
  else .ok (‖∑ i ∈ Finset.range (2 ^ sv.nqubit), star (sv.psi i) * other.psi i‖ ^ 2)

end Statevector

namespace SimState

/-- `transpiler.py:599-600`: `_backend.state.evolve(op, [_backend.node_index.index(qarg) for qarg in qargs])`. -/
noncomputable def evolveNodes (st : SimState) (op : NpMat) (nodes : List ℕ) : Except PyErr SimState := do
  let is ← indices st.idx nodes
  let sv ← st.sv.evolve op is
  return { st with sv := sv }

/-- `transpiler.py:605-607`. -/
def swapNodes (st : SimState) (u v : ℕ) : Except PyErr SimState := do
  let i ← st.idx.index u
  let j ← st.idx.index v
  return { st with sv := st.sv.swap i j }

end SimState

namespace DMState

/-- `transpiler.py:599-600`: `_backend.state.evolve(op, [_backend.node_index.index(qarg) for qarg in qargs])`. -/
noncomputable def evolveNodes (st : DMState) (op : NpMat) (nodes : List ℕ) : Except PyErr DMState := do
  let is ← SimState.indices st.idx nodes
  let dm ← st.dm.evolve op is
  return { st with dm := dm }

/-- `transpiler.py:605-607`. -/
noncomputable def swapNodes (st : DMState) (u v : ℕ) : Except PyErr DMState := do
  let i ← st.idx.index u
  let j ← st.idx.index v
  let dm ← st.dm.swap i j
  return { st with dm := dm }

end DMState

/-- `transpiler.py:593-641`: one instruction (the `k`-th) on the state-vector backend; `classical_measures` is the second component.
The outcomes are also recorded in `results` (the code has no such dictionary): this is what a branch selector with a memory may
know. -/
noncomputable def circStep (env : SimEnv) (k : ℕ) (cs : SimState × List Bool) : Instr → Except PyErr (SimState × List Bool)
  | .CNOT c t => do let st ← cs.1.evolveNodes Ops.npCNOT [c, t]; return (st, cs.2)
  | .SWAP u v => do let st ← cs.1.swapNodes u v; return (st, cs.2)
  | .CZ u v => do let st ← cs.1.entangleNodes env k u v; return (st, cs.2)
  | .I _ => return cs
  | .S t => do let st ← cs.1.applySingle env k t Ops.S; return (st, cs.2)
  | .H t => do let st ← cs.1.applySingle env k t Ops.H; return (st, cs.2)
  | .X t => do let st ← cs.1.applySingle env k t Ops.X; return (st, cs.2)
  | .Y t => do let st ← cs.1.applySingle env k t Ops.Y; return (st, cs.2)
  | .Z t => do let st ← cs.1.applySingle env k t Ops.Z; return (st, cs.2)
  | .RX t θ => do let st ← cs.1.applySingle env k t (Ops.rx θ); return (st, cs.2)
  | .RY t θ => do let st ← cs.1.applySingle env k t (Ops.ry θ); return (st, cs.2)
  | .RZ t θ => do let st ← cs.1.applySingle env k t (Ops.rz θ); return (st, cs.2)
  | .J t θ => do let st ← cs.1.applySingle env k t (Ops.j θ); return (st, cs.2)
  | .RZZ c t θ => do let st ← cs.1.evolveNodes (Ops.npRzz θ) [c, t]; return (st, cs.2)
  | .CCX c0 c1 t => do let st ← cs.1.evolveNodes Ops.npCCX [c0, c1, t]; return (st, cs.2)
  | .M t a => do
    let (st, result) ← cs.1.measureNode env k t (.pauli ⟨a, .plus⟩)
    return ({ st with results := st.results.set t result }, cs.2 ++ [result])

/-- `transpiler.py:593`: the loop over the instructions, numbered from `k`. -/
noncomputable def circLoop (env : SimEnv) : ℕ → List Instr → SimState × List Bool → Except PyErr (SimState × List Bool)
  | _, [], cs => .ok cs
  | k, i :: l, cs => do
    let cs ← circStep env k cs i
    circLoop env (k + 1) l cs

/-- `transpiler.py:586-589`, `1167` (`with_capacity(width)`), `statevec.py:293-300`: the initial state; `plusObj` says that the input
state is the object `BasicStates.PLUS` (the default). -/
noncomputable def circInput (width : ℕ) (data : InputData) (plusObj : Bool) (junk : ℕ → Buf) : Except PyErr Statevector :=
  let sv := initialBackend (junk 0) width
  if width = 1 ∧ plusObj = true then .ok (sv.addNode (junk 1) true PlanarState.plus.vec)
  else do
    let other ← Statevector.init data width
    return sv.tensor (junk 1) other

/-- `transpiler.py:553-642` `Circuit.simulate` with `backend="statevector"`: the state and the classical measures. -/
noncomputable def Circuit.simulate (c : Circuit) (env : SimEnv) (data : InputData) (plusObj : Bool) (junk : ℕ → Buf) :
    Except PyErr (Statevector × List Bool) := do
  let sv ← circInput c.width data plusObj junk
  let cs ← circLoop env 0 c.instrs (⟨sv, NodeIndex.clear.extend (List.range c.width), []⟩, [])
  return (cs.1.sv, cs.2)

/-- `transpiler.py:593-641`: one instruction on the density-matrix backend. -/
noncomputable def circStepDM (env : DMEnv) (cs : DMState × List Bool) : Instr → Except PyErr (DMState × List Bool)
  | .CNOT c t => do let st ← cs.1.evolveNodes Ops.npCNOT [c, t]; return (st, cs.2)
  | .SWAP u v => do let st ← cs.1.swapNodes u v; return (st, cs.2)
  | .CZ u v => do let st ← cs.1.entangleNodes u v; return (st, cs.2)
  | .I _ => return cs
  | .S t => do let st ← cs.1.applySingle t Ops.S; return (st, cs.2)
  | .H t => do let st ← cs.1.applySingle t Ops.H; return (st, cs.2)
  | .X t => do let st ← cs.1.applySingle t Ops.X; return (st, cs.2)
  | .Y t => do let st ← cs.1.applySingle t Ops.Y; return (st, cs.2)
  | .Z t => do let st ← cs.1.applySingle t Ops.Z; return (st, cs.2)
  | .RX t θ => do let st ← cs.1.applySingle t (Ops.rx θ); return (st, cs.2)
  | .RY t θ => do let st ← cs.1.applySingle t (Ops.ry θ); return (st, cs.2)
  | .RZ t θ => do let st ← cs.1.applySingle t (Ops.rz θ); return (st, cs.2)
  | .J t θ => do let st ← cs.1.applySingle t (Ops.j θ); return (st, cs.2)
  | .RZZ c t θ => do let st ← cs.1.evolveNodes (Ops.npRzz θ) [c, t]; return (st, cs.2)
  | .CCX c0 c1 t => do let st ← cs.1.evolveNodes Ops.npCCX [c0, c1, t]; return (st, cs.2)
  | .M t a => do
    let (st, result) ← cs.1.measureNode env t (.pauli ⟨a, .plus⟩)
    return ({ st with results := st.results.set t result }, cs.2 ++ [result])

/-- `transpiler.py:593`: the loop over the instructions. -/
noncomputable def circLoopDM (env : DMEnv) : List Instr → DMState × List Bool → Except PyErr (DMState × List Bool)
  | [], cs => .ok cs
  | i :: l, cs => do
    let cs ← circStepDM env cs i
    circLoopDM env l cs

/-- `transpiler.py:553-642` `Circuit.simulate` with `backend="densitymatrix"`. -/
noncomputable def Circuit.simulateDM (c : Circuit) (env : DMEnv) (data : DMData) : Except PyErr (DensityMatrix × List Bool) := do
  let dm ← initialDM.addNodes c.width data
  let cs ← circLoopDM env c.instrs (⟨dm, NodeIndex.clear.extend (List.range c.width), [], 0⟩, [])
  return (cs.1.dm, cs.2)

end Graphix
