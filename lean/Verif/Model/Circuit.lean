import Verif.Model.Measurement
import Verif.Model.Pattern

/-!
# Model of `graphix/instruction.py` and of the circuit part of `graphix/transpiler.py`

Angles are real numbers in units of π (`ANGLE_PI = 1`).
-/

namespace Graphix

namespace Ops

/-- `ops.py:108-122` `Ops.rx`. -/
noncomputable def rx (θ : ℝ) : Mat2 :=
  mat2 (Real.cos (θ * Real.pi / 2)) (-Complex.I * Real.sin (θ * Real.pi / 2)) (-Complex.I * Real.sin (θ * Real.pi / 2))
    (Real.cos (θ * Real.pi / 2))

/-- `ops.py:132-146` `Ops.ry`. -/
noncomputable def ry (θ : ℝ) : Mat2 :=
  mat2 (Real.cos (θ * Real.pi / 2)) (-Real.sin (θ * Real.pi / 2)) (Real.sin (θ * Real.pi / 2)) (Real.cos (θ * Real.pi / 2))

/-- `ops.py:156-169` `Ops.rz`. -/
noncomputable def rz (θ : ℝ) : Mat2 :=
  mat2 (Complex.exp (-Complex.I * (θ * Real.pi : ℝ) / 2)) 0 0 (Complex.exp (Complex.I * (θ * Real.pi : ℝ) / 2))

/-- `ops.py:179-198` `Ops.j`. -/
noncomputable def j (θ : ℝ) : Mat2 :=
  mat2 (1 / (Real.sqrt 2 : ℂ)) (1 / (Real.sqrt 2 : ℂ) * Complex.exp (Complex.I * (θ * Real.pi : ℝ)))
    (1 / (Real.sqrt 2 : ℂ)) (-1 / (Real.sqrt 2 : ℂ) * Complex.exp (Complex.I * (θ * Real.pi : ℝ)))

end Ops

/-- `instruction.py:118-382`: the circuit instructions. -/
inductive Instr
  | CCX (c0 c1 t : ℕ)
  | RZZ (c t : ℕ) (θ : ℝ)
  | CNOT (c t : ℕ)
  | SWAP (u v : ℕ)
  | CZ (u v : ℕ)
  | H (t : ℕ)
  | S (t : ℕ)
  | X (t : ℕ)
  | Y (t : ℕ)
  | Z (t : ℕ)
  | I (t : ℕ)
  | M (t : ℕ) (a : Axis)
  | RX (t : ℕ) (θ : ℝ)
  | RY (t : ℕ) (θ : ℝ)
  | RZ (t : ℕ) (θ : ℝ)
  | J (t : ℕ) (θ : ℝ)

/-- `transpiler.py:106-136` `class Circuit`. -/
structure Circuit where
  width : ℕ
  instrs : List Instr
  active : Finset ℕ

namespace Circuit

/-- `transpiler.py:121-136` `Circuit.__init__` without instructions. -/
def new (width : ℕ) : Circuit := ⟨width, [], Finset.range width⟩

/-- The assertions that the methods `ccx`, `rzz`, ... (`transpiler.py:185-428`) make on the qubits of an instruction.
`rzz` (379-380) does not check that the qubits are distinct. -/
def instrOk (active : Finset ℕ) : Instr → Bool
  | .CCX c0 c1 t => c0 ∈ active ∧ c1 ∈ active ∧ t ∈ active ∧ c0 ≠ c1 ∧ c0 ≠ t ∧ c1 ≠ t
  | .RZZ c t _ => c ∈ active ∧ t ∈ active
  | .CNOT c t => c ∈ active ∧ t ∈ active ∧ c ≠ t
  | .SWAP u v => u ∈ active ∧ v ∈ active ∧ u ≠ v
  | .CZ u v => u ∈ active ∧ v ∈ active ∧ u ≠ v
  | .H t | .S t | .X t | .Y t | .Z t | .I t | .M t _ | .RX t _ | .RY t _ | .RZ t _ | .J t _ => t ∈ active

/-- `transpiler.py:138-174` `Circuit.add`. -/
def add (c : Circuit) (i : Instr) : Except PyErr Circuit :=
  if instrOk c.active i then
    match i with
    | .M t _ => .ok { c with instrs := c.instrs ++ [i], active := c.active.erase t }
    | _ => .ok { c with instrs := c.instrs ++ [i] }
  else .error .assertionError

/-- `transpiler.py:176-179` `Circuit.extend`. -/
def extend (c : Circuit) : List Instr → Except PyErr Circuit
  | [] => .ok c
  | i :: l => do
    let c ← c.add i
    c.extend l

end Circuit

/-- `transpiler.py:753-767` `decompose_rzz`. -/
def decomposeRzz (c t : ℕ) (θ : ℝ) : List Instr := [.CNOT c t, .RZ t θ, .CNOT c t]

/-- `transpiler.py:770-806` `decompose_ccx`. -/
noncomputable def decomposeCcx (c0 c1 t : ℕ) : List Instr :=
  [.H t, .CNOT c1 t, .RZ t (-1 / 4), .CNOT c0 t, .RZ t (1 / 4), .CNOT c1 t, .RZ t (-1 / 4), .CNOT c0 t, .RZ c1 (-1 / 4),
    .RZ t (1 / 4), .CNOT c0 c1, .H t, .RZ c1 (-1 / 4), .CNOT c0 c1, .RZ c0 (1 / 4), .RZ c1 (1 / 2)]

/-- `transpiler.py:809-825` `decompose_cnot`. -/
def decomposeCnot (c t : ℕ) : List Instr := [.H t, .CZ c t, .H t]

/-- `transpiler.py:828-847` `decompose_swap`. -/
def decomposeSwap (u v : ℕ) : List Instr := [.CNOT u v, .CNOT v u, .CNOT u v]

/-- `transpiler.py:850-863` `decompose_y`. -/
def decomposeY (t : ℕ) : List Instr := [.Z t, .X t]

/-- `transpiler.py:866-882` `decompose_rx`. -/
def decomposeRx (t : ℕ) (θ : ℝ) : List Instr := [.J t 0, .J t θ]

/-- `transpiler.py:885-904` `decompose_ry`. -/
noncomputable def decomposeRy (t : ℕ) (θ : ℝ) : List Instr := [.J t (-1 / 2), .J t θ, .J t (1 / 2), .J t 0]

/-- `transpiler.py:907-923` `decompose_rz`. -/
def decomposeRz (t : ℕ) (θ : ℝ) : List Instr := [.J t θ, .J t 0]

/-- Number of recursive steps needed for an instruction (only used to see that the recursion ends). -/
def Instr.weight : Instr → ℕ
  | .CCX .. => 64
  | .RZZ .. => 32
  | .CNOT .. => 8
  | .SWAP .. => 32
  | .Y _ => 8
  | _ => 1

/-- `transpiler.py:926-971` `instructions_to_jcz`. The generator returns, and drops the rest, at the first `I`. -/
noncomputable def instructionsToJcz : List Instr → List Instr
  | [] => []
  | .J t θ :: l => .J t θ :: instructionsToJcz l
  | .CZ u v :: l => .CZ u v :: instructionsToJcz l
  | .M t a :: l => .M t a :: instructionsToJcz l
  | .I _ :: _ => []
  | .H t :: l => .J t 0 :: instructionsToJcz l
  | .S t :: l => decomposeRz t (1 / 2) ++ instructionsToJcz l
  | .X t :: l => decomposeRx t 1 ++ instructionsToJcz l
  | .Y t :: l => instructionsToJcz (decomposeY t) ++ instructionsToJcz l
  | .Z t :: l => decomposeRz t 1 ++ instructionsToJcz l
  | .RX t θ :: l => decomposeRx t θ ++ instructionsToJcz l
  | .RY t θ :: l => decomposeRy t θ ++ instructionsToJcz l
  | .RZ t θ :: l => decomposeRz t θ ++ instructionsToJcz l
  | .CCX c0 c1 t :: l => instructionsToJcz (decomposeCcx c0 c1 t) ++ instructionsToJcz l
  | .RZZ c t θ :: l => instructionsToJcz (decomposeRzz c t θ) ++ instructionsToJcz l
  | .CNOT c t :: l => instructionsToJcz (decomposeCnot c t) ++ instructionsToJcz l
  | .SWAP u v :: l => instructionsToJcz (decomposeSwap u v) ++ instructionsToJcz l
termination_by l => (l.map Instr.weight).sum
decreasing_by
  all_goals simp [Instr.weight, decomposeY, decomposeCcx, decomposeRzz, decomposeCnot, decomposeSwap]
  all_goals omega

namespace Circuit

/-- `transpiler.py:723-737`: the instructions added for one instruction by `transpile_measurements_to_z_axis`. -/
noncomputable def zAxisInstrs : Instr → List Instr
  | .M t .X => [.H t, .M t .Z]
  | .M t .Y => [.RX t (1 / 2), .M t .Z]
  | i => [i]

/-- `transpiler.py:720-738` `transpile_measurements_to_z_axis`. -/
noncomputable def transpileMeasurementsToZAxis (c : Circuit) : Except PyErr Circuit :=
  (Circuit.new c.width).extend (c.instrs.flatMap zAxisInstrs)

/-- `transpiler.py:743-749`: the instructions added for one instruction by `transpile_j_to_rzh`. -/
def jToRzhInstrs : Instr → List Instr
  | .J t θ => [.RZ t θ, .H t]
  | i => [i]

/-- `transpiler.py:740-750` `transpile_j_to_rzh`. -/
def transpileJToRzh (c : Circuit) : Except PyErr Circuit :=
  (Circuit.new c.width).extend (c.instrs.flatMap jToRzhInstrs)

end Circuit

/-- `transpiler.py:972-989` `normalize_angle` (of a `float`). -/
noncomputable def normalizeAngle (θ : ℝ) : ℝ := θ - 2 * ⌊θ / 2⌋

/-- `transpiler.py:1029-1048` `OutputIndex` (with `OutputKind`). -/
inductive OutputIndex
  | qubit (i : ℕ)
  | bit (i : ℕ)
  deriving DecidableEq

/-- `transpiler.py:991-1026` `TranspileSwapsResult`. -/
structure TranspileSwapsResult where
  circuit : Circuit
  outputs : List OutputIndex

/-- `transpiler.py:1051-1062` `_TranspileSwapVisitor.visit_qubit` on the list `outputs`. -/
def visitQubit (outputs : List OutputIndex) (q : ℕ) : Except PyErr ℕ :=
  match outputs[q]? with
  | none => .error .indexError
  | some (.bit _) => .error .runtimeError
  | some (.qubit i) => .ok i

/-- `instruction.py:118-382` `Instruction.visit` with the visitor `visit_qubit`. -/
def Instr.visit (f : ℕ → Except PyErr ℕ) : Instr → Except PyErr Instr
  | .CCX c0 c1 t => do return .CCX (← f c0) (← f c1) (← f t)
  | .RZZ c t θ => do return .RZZ (← f c) (← f t) θ
  | .CNOT c t => do return .CNOT (← f c) (← f t)
  | .SWAP u v => do return .SWAP (← f u) (← f v)
  | .CZ u v => do return .CZ (← f u) (← f v)
  | .H t => do return .H (← f t)
  | .S t => do return .S (← f t)
  | .X t => do return .X (← f t)
  | .Y t => do return .Y (← f t)
  | .Z t => do return .Z (← f t)
  | .I t => do return .I (← f t)
  | .M t a => do return .M (← f t) a
  | .RX t θ => do return .RX (← f t) θ
  | .RY t θ => do return .RY (← f t) θ
  | .RZ t θ => do return .RZ (← f t) θ
  | .J t θ => do return .J (← f t) θ

/-- `transpiler.py:1092-1107`: the loop of `transpile_swaps`; `k` is `measurement_index`. -/
def transpileSwapsLoop : List Instr → Circuit → List OutputIndex → ℕ → Except PyErr (Circuit × List OutputIndex)
  | [], c, outputs, _ => .ok (c, outputs)
  | .SWAP u v :: l, c, outputs, k => do
    let _ ← visitQubit outputs u
    let _ ← visitQubit outputs v
    match outputs[u]?, outputs[v]? with
    | some ou, some ov => transpileSwapsLoop l c ((outputs.set u ov).set v ou) k
    | _, _ => .error .indexError
  | .M t a :: l, c, outputs, k => do
    let i ← (Instr.M t a).visit (visitQubit outputs)
    let c ← c.add i
    transpileSwapsLoop l c (outputs.set t (.bit k)) (k + 1)
  | i :: l, c, outputs, k => do
    let i ← i.visit (visitQubit outputs)
    let c ← c.add i
    transpileSwapsLoop l c outputs k

/-- `transpiler.py:1065-1111` `transpile_swaps` (the returned value; with `copy=False` the circuit is updated with the
same instructions). -/
def transpileSwaps (c : Circuit) : Except PyErr TranspileSwapsResult := do
  let (circuit, outputs) ← transpileSwapsLoop c.instrs (Circuit.new c.width) ((List.range c.width).map .qubit) 0
  return ⟨circuit, outputs⟩

namespace TranspileSwapsResult

/-- `transpiler.py:1006-1008` `extract_outputs(OutputKind.Qubit)`. -/
def qubits (s : TranspileSwapsResult) : List ℕ := s.outputs.filterMap fun o => match o with | .qubit i => some i | .bit _ => none

/-- `transpiler.py:1006-1008` `extract_outputs(OutputKind.Bit)`. -/
def bits (s : TranspileSwapsResult) : List ℕ := s.outputs.filterMap fun o => match o with | .bit i => some i | .qubit _ => none

/-- `transpiler.py:1012-1017`: `reduced_index`; the list is `enumerate(self.outputs)`. -/
def reducedIndex : List (OutputIndex × ℕ) → ℕ → PyDict ℕ ℕ → PyDict ℕ ℕ
  | [], _, d => d
  | (.qubit _, index) :: l, counter, d => reducedIndex l (counter + 1) (d.set index counter)
  | (.bit _, _) :: l, counter, d => reducedIndex l counter d

/-- `d[k]`, with `KeyError`. -/
def lookupAll {α : Type} (f : ℕ → Option α) (e : PyErr) : List ℕ → Except PyErr (List α)
  | [] => .ok []
  | k :: l => do
    match f k with
    | none => .error e
    | some a => do
      let rest ← lookupAll f e l
      return a :: rest

/-- `transpiler.py:1010-1018` `extract_output_node_indices`. -/
def extractOutputNodeIndices (s : TranspileSwapsResult) : Except PyErr (List ℕ) :=
  lookupAll (reducedIndex s.outputs.zipIdx 0 []).get? .keyError s.qubits

/-- `transpiler.py:1020-1022` `swap_output_nodes`. -/
def swapOutputNodes (s : TranspileSwapsResult) (nodes : List ℕ) : Except PyErr (List ℕ) := do
  let idx ← s.extractOutputNodeIndices
  lookupAll (fun i => nodes[i]?) .indexError idx

/-- `transpiler.py:1024-1026` `swap_classical_outputs`. -/
def swapClassicalOutputs (s : TranspileSwapsResult) (nodes : List ℕ) : Except PyErr (List ℕ) :=
  lookupAll (fun i => nodes[i]?) .indexError s.bits

end TranspileSwapsResult
end Graphix
