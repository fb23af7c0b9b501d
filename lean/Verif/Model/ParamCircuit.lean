import Verif.Model.Transpile
import Verif.Model.ParamStd

/-!
# Model of circuits with parameters: `graphix/transpiler.py:99-103, 138-179, 430-519, 644-718, 753-989, 1051-1111`,
`graphix/flow/core.py:149-209` and `graphix/space_minimization.py:95-146`

The same functions as in `Model/Circuit.lean`, `Model/Transpile.lean`, `Model/Flow.lean` and `Model/SpaceMin.lean`, where
the angles may be affine expressions.  The parts of the code that look only at the nodes of the measurements (the
checks of the open graph, the neighbourhoods, the partial order, the total order) are those of the models without
parameters, on a *skeleton* whose measurements are arbitrary.
-/

namespace Graphix

/-- `instruction.py:118-382`: the circuit instructions, with angles that may be expressions. -/
inductive PInstr
  | CCX (c0 c1 t : ℕ)
  | RZZ (c t : ℕ) (θ : Expr)
  | CNOT (c t : ℕ)
  | SWAP (u v : ℕ)
  | CZ (u v : ℕ)
  | H (t : ℕ)
  | S (t : ℕ)
  | X (t : ℕ)
  | Y (t : ℕ)
  | Z (t : ℕ)
  | I (t : ℕ)
  | M (t : ℕ) (a : Axis)
  | RX (t : ℕ) (θ : Expr)
  | RY (t : ℕ) (θ : Expr)
  | RZ (t : ℕ) (θ : Expr)
  | J (t : ℕ) (θ : Expr)

namespace PInstr

/-- `instruction.py:118-382` `visit` with the visitor `_MapAngleVisitor(f)` (`transpiler.py:98-103`). -/
def mapAngle (f : Expr → Except PyErr Expr) : PInstr → Except PyErr PInstr
  | RZZ c t θ => do return RZZ c t (← f θ)
  | RX t θ => do return RX t (← f θ)
  | RY t θ => do return RY t (← f θ)
  | RZ t θ => do return RZ t (← f θ)
  | J t θ => do return J t (← f θ)
  | i => .ok i

/-- `instruction.py:118-382` `visit` with the visitor `visit_qubit` (as `Instr.visit`). -/
def visit (f : ℕ → Except PyErr ℕ) : PInstr → Except PyErr PInstr
  | CCX c0 c1 t => do return CCX (← f c0) (← f c1) (← f t)
  | RZZ c t θ => do return RZZ (← f c) (← f t) θ
  | CNOT c t => do return CNOT (← f c) (← f t)
  | SWAP u v => do return SWAP (← f u) (← f v)
  | CZ u v => do return CZ (← f u) (← f v)
  | H t => do return H (← f t)
  | S t => do return S (← f t)
  | X t => do return X (← f t)
  | Y t => do return Y (← f t)
  | Z t => do return Z (← f t)
  | I t => do return I (← f t)
  | M t a => do return M (← f t) a
  | RX t θ => do return RX (← f t) θ
  | RY t θ => do return RY (← f t) θ
  | RZ t θ => do return RZ (← f t) θ
  | J t θ => do return J (← f t) θ

end PInstr

/-- `transpiler.py:106-136` `class Circuit`. -/
structure PCircuit where
  width : ℕ
  instrs : List PInstr
  active : Finset ℕ

namespace PCircuit

/-- `transpiler.py:121-136` `Circuit.__init__` without instructions. -/
def new (width : ℕ) : PCircuit := ⟨width, [], Finset.range width⟩

/-- The assertions on the qubits of an instruction (`transpiler.py:185-428`). -/
def instrOk (active : Finset ℕ) : PInstr → Bool
  | .CCX c0 c1 t => c0 ∈ active ∧ c1 ∈ active ∧ t ∈ active ∧ c0 ≠ c1 ∧ c0 ≠ t ∧ c1 ≠ t
  | .RZZ c t _ => c ∈ active ∧ t ∈ active
  | .CNOT c t => c ∈ active ∧ t ∈ active ∧ c ≠ t
  | .SWAP u v => u ∈ active ∧ v ∈ active ∧ u ≠ v
  | .CZ u v => u ∈ active ∧ v ∈ active ∧ u ≠ v
  | .H t | .S t | .X t | .Y t | .Z t | .I t | .M t _ | .RX t _ | .RY t _ | .RZ t _ | .J t _ => t ∈ active

/-- `transpiler.py:138-174` `Circuit.add`. -/
def add (c : PCircuit) (i : PInstr) : Except PyErr PCircuit :=
  if instrOk c.active i then
    match i with
    | .M t _ => .ok { c with instrs := c.instrs ++ [i], active := c.active.erase t }
    | _ => .ok { c with instrs := c.instrs ++ [i] }
  else .error .assertionError

/-- `transpiler.py:176-179` `Circuit.extend`. -/
def extend (c : PCircuit) : List PInstr → Except PyErr PCircuit
  | [] => .ok c
  | i :: l => do
    let c ← c.add i
    c.extend l

/-- `transpiler.py:644-689` `visit(_MapAngleVisitor(f), copy=…)`, `apply_angle`: with `copy=True` the result is built
from `Circuit(self.width)`, whose active qubits are all the qubits, and instructions are appended to its list (l. 665);
in place, only the angles change. -/
def applyAngle (c : PCircuit) (f : Expr → Except PyErr Expr) (copy : Bool) : Except PyErr PCircuit := do
  let l ← c.instrs.mapM (PInstr.mapAngle f)
  if copy then return { PCircuit.new c.width with instrs := l } else return { c with instrs := l }

/-- `transpiler.py:691-706` `is_parameterized` (`J` is not in the list of kinds). -/
def isParameterized (c : PCircuit) : Bool :=
  c.instrs.any fun i => match i with
    | .RZZ _ _ (.aff _ _ _) | .RX _ (.aff _ _ _) | .RY _ (.aff _ _ _) | .RZ _ (.aff _ _ _) => true
    | _ => false

/-- `transpiler.py:708-712` `replace_parameter`. -/
noncomputable def replaceParameter (c : PCircuit) (x : ℕ) (e : Expr) (copy : Bool) : Except PyErr PCircuit :=
  c.applyAngle (fun θ => θ.subs x e) copy

/-- `transpiler.py:714-718` `replace_parameters`. -/
noncomputable def replaceParameters (c : PCircuit) (assignment : ℕ → Option Expr) (copy : Bool) : Except PyErr PCircuit :=
  c.applyAngle (fun θ => θ.xreplace assignment) copy

end PCircuit

namespace PInstr

/-- `transpiler.py:753-767` `decompose_rzz`. -/
def decomposeRzz (c t : ℕ) (θ : Expr) : List PInstr := [CNOT c t, RZ t θ, CNOT c t]

/-- `transpiler.py:770-806` `decompose_ccx`. -/
noncomputable def decomposeCcx (c0 c1 t : ℕ) : List PInstr :=
  [H t, CNOT c1 t, RZ t (.num (-1 / 4)), CNOT c0 t, RZ t (.num (1 / 4)), CNOT c1 t, RZ t (.num (-1 / 4)), CNOT c0 t,
    RZ c1 (.num (-1 / 4)), RZ t (.num (1 / 4)), CNOT c0 c1, H t, RZ c1 (.num (-1 / 4)), CNOT c0 c1, RZ c0 (.num (1 / 4)),
    RZ c1 (.num (1 / 2))]

/-- `transpiler.py:809-825` `decompose_cnot`. -/
def decomposeCnot (c t : ℕ) : List PInstr := [H t, CZ c t, H t]

/-- `transpiler.py:828-847` `decompose_swap`. -/
def decomposeSwap (u v : ℕ) : List PInstr := [CNOT u v, CNOT v u, CNOT u v]

/-- `transpiler.py:850-863` `decompose_y`. -/
def decomposeY (t : ℕ) : List PInstr := [Z t, X t]

/-- `transpiler.py:866-882` `decompose_rx`. -/
noncomputable def decomposeRx (t : ℕ) (θ : Expr) : List PInstr := [J t (.num 0), J t θ]

/-- `transpiler.py:885-904` `decompose_ry`. -/
noncomputable def decomposeRy (t : ℕ) (θ : Expr) : List PInstr :=
  [J t (.num (-1 / 2)), J t θ, J t (.num (1 / 2)), J t (.num 0)]

/-- `transpiler.py:907-923` `decompose_rz`. -/
noncomputable def decomposeRz (t : ℕ) (θ : Expr) : List PInstr := [J t θ, J t (.num 0)]

/-- Number of recursive steps needed for an instruction (only used to see that the recursion ends). -/
def weight : PInstr → ℕ
  | CCX .. => 64
  | RZZ .. => 32
  | CNOT .. => 8
  | SWAP .. => 32
  | Y _ => 8
  | _ => 1

/-- `transpiler.py:926-971` `instructions_to_jcz`. The generator returns, and drops the rest, at the first `I`. -/
noncomputable def toJcz : List PInstr → List PInstr
  | [] => []
  | J t θ :: l => J t θ :: toJcz l
  | CZ u v :: l => CZ u v :: toJcz l
  | M t a :: l => M t a :: toJcz l
  | I _ :: _ => []
  | H t :: l => J t (.num 0) :: toJcz l
  | S t :: l => decomposeRz t (.num (1 / 2)) ++ toJcz l
  | X t :: l => decomposeRx t (.num 1) ++ toJcz l
  | Y t :: l => toJcz (decomposeY t) ++ toJcz l
  | Z t :: l => decomposeRz t (.num 1) ++ toJcz l
  | RX t θ :: l => decomposeRx t θ ++ toJcz l
  | RY t θ :: l => decomposeRy t θ ++ toJcz l
  | RZ t θ :: l => decomposeRz t θ ++ toJcz l
  | CCX c0 c1 t :: l => toJcz (decomposeCcx c0 c1 t) ++ toJcz l
  | RZZ c t θ :: l => toJcz (decomposeRzz c t θ) ++ toJcz l
  | CNOT c t :: l => toJcz (decomposeCnot c t) ++ toJcz l
  | SWAP u v :: l => toJcz (decomposeSwap u v) ++ toJcz l
termination_by l => (l.map weight).sum
decreasing_by
  all_goals simp [weight, decomposeY, decomposeCcx, decomposeRzz, decomposeCnot, decomposeSwap]
  all_goals omega

end PInstr

/-- `transpiler.py:972-989` `normalize_angle`: an angle that is an expression is not reduced. -/
noncomputable def normalizeExpr : Expr → Expr
  | .num r => .num (normalizeAngle r)
  | e => e

namespace PCircuit

/-- `transpiler.py:1092-1107`: the loop of `transpile_swaps`; `k` is `measurement_index`. -/
def transpileSwapsLoop : List PInstr → PCircuit → List OutputIndex → ℕ → Except PyErr (PCircuit × List OutputIndex)
  | [], c, outputs, _ => .ok (c, outputs)
  | .SWAP u v :: l, c, outputs, k => do
    let _ ← visitQubit outputs u
    let _ ← visitQubit outputs v
    match outputs[u]?, outputs[v]? with
    | some ou, some ov => transpileSwapsLoop l c ((outputs.set u ov).set v ou) k
    | _, _ => .error .indexError
  | .M t a :: l, c, outputs, k => do
    let i ← (PInstr.M t a).visit (visitQubit outputs)
    let c ← c.add i
    transpileSwapsLoop l c (outputs.set t (.bit k)) (k + 1)
  | i :: l, c, outputs, k => do
    let i ← i.visit (visitQubit outputs)
    let c ← c.add i
    transpileSwapsLoop l c outputs k

end PCircuit

/-- `opengraph.py:43-81` `class OpenGraph`, whose measurements may have parameters. -/
structure POpenGraph where
  nodes : Finset ℕ
  edges : List (ℕ × ℕ)
  inputs : List ℕ
  outputs : List ℕ
  measurements : PyDict ℕ PMeasurement
  cliffords : PyDict ℕ Clifford

/-- The open graph as it is seen by the code that does not look at the measurements, only at the nodes that are
measured. -/
def POpenGraph.skeleton (og : POpenGraph) : OpenGraph where
  nodes := og.nodes
  edges := og.edges
  inputs := og.inputs
  outputs := og.outputs
  measurements := og.measurements.map fun kv => (kv.1, .pauli ⟨.X, .plus⟩)
  cliffords := og.cliffords

/-- `transpiler.py:441-448`: the variables of `transpile_to_causalflow` (see `JczState`). -/
structure PJczState where
  indices : List (Option ℕ)
  nNodes : ℕ
  measurements : PyDict ℕ PMeasurement
  classical : PyDict ℕ Axis
  nodes : Finset ℕ
  edges : List (ℕ × ℕ)
  x : PyDict ℕ (Finset ℕ)

namespace PJczState

/-- `transpiler.py:441-448`: initial values. -/
def init (width : ℕ) : PJczState :=
  ⟨(List.range width).map some, width, [], [], Finset.range width, [], []⟩

/-- `indices[q]` followed by the test that it is not `None`. -/
def index (st : PJczState) (q : ℕ) : Except PyErr ℕ :=
  match st.indices[q]? with
  | none => .error .indexError
  | some none => .error .runtimeError
  | some (some n) => .ok n

/-- `transpiler.py:449-482`: the body of the loop. The last case is `assert_never`. -/
noncomputable def step (st : PJczState) : PInstr → Except PyErr PJczState
  | .M t a => do
    let target ← st.index t
    return { st with classical := st.classical.set target a, indices := st.indices.set t none }
  | .J t θ => do
    let target ← st.index t
    return { st with
      edges := addGraphEdge st.edges target st.nNodes
      nodes := st.nodes ∪ {target, st.nNodes}
      measurements := st.measurements.set target (.bloch (normalizeExpr θ.neg) .XY)
      indices := st.indices.set t (some st.nNodes)
      x := st.x.set target {st.nNodes}
      nNodes := st.nNodes + 1 }
  | .CZ t0 t1 => do
    let i0 ← st.index t0
    let i1 ← st.index t1
    if hasEdge st.edges i0 i1 then return { st with edges := removeEdge st.edges i0 i1 }
    else return { st with edges := addGraphEdge st.edges i0 i1, nodes := st.nodes ∪ {i0, i1} }
  | _ => .error .assertionError

/-- `transpiler.py:449-482`: the loop. -/
noncomputable def run (st : PJczState) : List PInstr → Except PyErr PJczState
  | [] => .ok st
  | i :: l => do
    let st ← st.step i
    st.run l

/-- `transpiler.py:483-489`: the open graph (see `JczState.openGraph`). -/
def openGraph (width : ℕ) (eord : List (ℕ × ℕ) → List (ℕ × ℕ)) (st : PJczState) : POpenGraph where
  nodes := st.nodes
  edges := eord st.edges
  inputs := List.range width
  outputs := st.indices.filterMap id ++ st.classical.keys
  measurements := st.measurements
  cliffords := []

end PJczState

/-- `transpiler.py:67-74` `TranspiledFlow`. -/
structure PTranspiledFlow where
  og : POpenGraph
  corr : PyDict ℕ (Finset ℕ)
  layers : List (Finset ℕ)
  classical : PyDict ℕ Axis

/-- `transpiler.py:430-497` `transpile_to_causalflow`. -/
noncomputable def PCircuit.transpileToCausalFlow (c : PCircuit) (ord : SetOrd) (eord : List (ℕ × ℕ) → List (ℕ × ℕ)) :
    Except PyErr PTranspiledFlow := do
  let st ← (PJczState.init c.width).run (PInstr.toJcz c.instrs)
  let og := st.openGraph c.width eord
  og.skeleton.postInit
  let z ← zCorrections og.skeleton st.x []
  let layers ← correctionsToPartialOrderLayers og.skeleton ord st.x z
  return ⟨og, st.x, layers, st.classical⟩

/-- `flow/core.py:195-203`: the loop over the measurements; `xz` is a skeleton. -/
def POpenGraph.measureCmds (og : POpenGraph) (xz : XZCorrections) (ord : SetOrd) : List ℕ → Except PyErr (List PCommand)
  | [] => .ok []
  | node :: order => do
    match og.measurements.get? node with
    | none => .error .keyError
    | some m => do
      let rest ← measureCmds og xz ord order
      return PCommand.M node m ∅ ∅ :: (((XZCorrections.corrected (ord 2 node) xz.z node).map fun k => PCommand.Z k {node}) ++
        (((XZCorrections.corrected (ord 3 node) xz.x node).map fun k => PCommand.X k {node}) ++ rest))

/-- `flow/core.py:187-209`: the pattern for a given total order; `xz` is a skeleton. -/
noncomputable def POpenGraph.buildPattern (og : POpenGraph) (xz : XZCorrections) (ord : SetOrd) (order : List ℕ) :
    Except PyErr PPattern := do
  let measures ← og.measureCmds xz ord order
  let cmds := (ord 1 0 (og.nodes \ og.inputs.toFinset)).map (PCommand.N · PlanarState.plus) ++
    (og.edges.map (fun e => PCommand.E e.1 e.2) ++ (measures ++ og.cliffords.map (fun kv => PCommand.C kv.1 kv.2)))
  (cmds.foldl PPattern.add (PPattern.empty og.inputs)).reorderOutputNodes og.outputs

/-- `optimization.py:90-150` `StandardizedPattern`. -/
structure PStdPattern extends PStdBody where
  inputs : List ℕ
  outputs : List ℕ

/-- `optimization.py:152-222` `StandardizedPattern.from_pattern`. -/
noncomputable def PStdPattern.fromPattern (p : PPattern) : Except PyErr PStdPattern :=
  match p.checkRunnability with
  | .error _ => .error .patternError
  | .ok _ => do
    let b ← PStdBody.run ⟨StdBody.init, []⟩ p.seq
    return { b with inputs := p.inputs, outputs := p.outputs }

/-- State of `standardized_to_space_optimal_pattern` (`space_minimization.py:112-114`), see `OptState`. -/
structure POptState where
  seq : List PCommand
  initialized : Finset ℕ
  done : Finset ℕ

namespace POptState

/-- `space_minimization.py:118-122` `ensure_active`; `n_dict[node]` may raise `KeyError`. -/
def ensureActive (nd : PyDict ℕ PlanarState) (st : POptState) (node : ℕ) : Except PyErr POptState :=
  if node ∈ st.initialized then .ok st
  else match PyDict.get? nd node with
    | none => .error .keyError
    | some s => .ok { st with seq := st.seq ++ [.N node s], initialized := insert node st.initialized }

/-- `space_minimization.py:128-130`: the body of the loop over the neighbours. -/
def linkNeighbor (nd : PyDict ℕ PlanarState) (node : ℕ) (st : POptState) (v : ℕ) : Except PyErr POptState :=
  if v ∈ st.done then .ok st
  else do
    let st ← st.ensureActive nd v
    return { st with seq := st.seq ++ [.E node v] }

/-- `space_minimization.py:124-130` `ensure_neighborhood`. -/
def ensureNeighborhood (nd : PyDict ℕ PlanarState) (nbr : ℕ → List ℕ) (st : POptState) (node : ℕ) :
    Except PyErr POptState := do
  let st ← st.ensureActive nd node
  (nbr node).foldlM (linkNeighbor nd node) st

end POptState

namespace PStdPattern

/-- `space_minimization.py:115` `n_dict` (a later entry replaces an earlier one). -/
def nDict (sp : PStdPattern) : PyDict ℕ PlanarState :=
  sp.base.nList.foldl (fun d n => PyDict.set d n.1 n.2) []

/-- `space_minimization.py:132-135`: the body of the loop over the measurements. -/
def optMeasure (sp : PStdPattern) (nbr : ℕ → List ℕ) (st : POptState) (m : PMCmd) : Except PyErr POptState := do
  let st ← st.ensureNeighborhood sp.nDict nbr m.node
  return { st with seq := st.seq ++ [.M m.node m.measurement m.sDomain m.tDomain], done := insert m.node st.done }

/-- `space_minimization.py:138-143`: the corrections added for an output node. -/
def optCorrections (sp : PStdPattern) (node : ℕ) : List PCommand :=
  (match PyDict.get? sp.base.zDict node with
    | some d => if d ≠ ∅ then [PCommand.Z node d] else []
    | none => []) ++
  (match PyDict.get? sp.base.xDict node with
    | some d => if d ≠ ∅ then [PCommand.X node d] else []
    | none => []) ++
  (match PyDict.get? sp.base.cDict node with
    | some c => [PCommand.C node c]
    | none => [])

/-- `space_minimization.py:136-144`: the body of the loop over the outputs. -/
def optOutput (sp : PStdPattern) (nbr : ℕ → List ℕ) (st : POptState) (node : ℕ) : Except PyErr POptState := do
  let st ← st.ensureNeighborhood sp.nDict nbr node
  return { st with seq := st.seq ++ sp.optCorrections node, done := insert node st.done }

/-- The commands of `standardized_to_space_optimal_pattern` (`space_minimization.py:112-144`). -/
def optSeq (sp : PStdPattern) (nbr : ℕ → List ℕ) : Except PyErr POptState := do
  let st ← sp.mList.foldlM (sp.optMeasure nbr) ⟨[], sp.inputs.toFinset, ∅⟩
  sp.outputs.foldlM (sp.optOutput nbr) st

/-- `space_minimization.py:95-146` `standardized_to_space_optimal_pattern`. -/
def toSpaceOptimalPattern (sp : PStdPattern) (nbr : ℕ → List ℕ) : Except PyErr PPattern := do
  let st ← sp.optSeq nbr
  (st.seq.foldl PPattern.add (PPattern.empty sp.inputs)).reorderOutputNodes sp.outputs

end PStdPattern

/-- `transpiler.py:56-64` `TranspiledPattern`. -/
structure PTranspiledPattern where
  pattern : PPattern
  classicalOutputs : List ℕ

/-- `transpiler.py:75-79` `TranspiledFlow.to_pattern`; `nbr` is the order in which networkx lists neighbours. -/
noncomputable def PTranspiledFlow.toPattern (t : PTranspiledFlow) (ord : SetOrd) (nbr : Finset (Sym2 ℕ) → ℕ → List ℕ) :
    Except PyErr PTranspiledPattern := do
  let xz ← (Flow.mk t.og.skeleton t.corr t.layers).toXZC
  let order ← xz.generateTotalMeasurementOrder ord
  let p ← t.og.buildPattern xz ord order
  let sp ← PStdPattern.fromPattern p
  let q ← sp.toSpaceOptimalPattern (nbr sp.base.eSet)
  return ⟨(t.classical.map fun kv => PCommand.M kv.1 (.pauli ⟨kv.2, .plus⟩) ∅ ∅).foldl PPattern.add q, t.classical.keys⟩

namespace PCircuit

/-- `transpiler.py:498-513` `Circuit.transpile(transpile_swaps=False)`. -/
noncomputable def transpileKeepSwaps (c : PCircuit) (ord : SetOrd) (eord : List (ℕ × ℕ) → List (ℕ × ℕ))
    (nbr : Finset (Sym2 ℕ) → ℕ → List ℕ) : Except PyErr PTranspiledPattern := do
  let t ← c.transpileToCausalFlow ord eord
  t.toPattern ord nbr

/-- `transpiler.py:498-519` `Circuit.transpile()`; the methods of `TranspileSwapsResult` (1006-1026) that reorder the
outputs do not look at its circuit. -/
noncomputable def transpile (c : PCircuit) (ord : SetOrd) (eord : List (ℕ × ℕ) → List (ℕ × ℕ))
    (nbr : Finset (Sym2 ℕ) → ℕ → List ℕ) : Except PyErr PTranspiledPattern := do
  let (circuit, outputs) ← transpileSwapsLoop c.instrs (PCircuit.new c.width) ((List.range c.width).map .qubit) 0
  let swap : TranspileSwapsResult := ⟨Circuit.new c.width, outputs⟩
  let result ← circuit.transpileKeepSwaps ord eord nbr
  let outs ← swap.swapOutputNodes result.pattern.outputs
  let p ← result.pattern.reorderOutputNodes outs
  let classical ← swap.swapClassicalOutputs result.classicalOutputs
  return ⟨p, classical⟩

end PCircuit
end Graphix
