import Verif.Model.Flow
import Verif.Model.Linalg

/-!
# Model of `graphix/flow/_find_gpflow.py`

A `NodeIndex` (see `Model/Simulator.lean` and C40) is the list of its nodes; `index` is the position in the list.
`ord` gives the iteration orders of Python sets and `mmo` the order in which the parallel loops of `mat_mul` run, for
each call and shape; the theorems quantify over both.
-/

namespace Graphix

/-- Order of the iterations of the parallel loops of `mat_mul`: call site, number of rows, inner dimension. -/
abbrev MulOrd := ℕ → ℕ → ℕ → List (ℕ × ℕ)

/-- `_find_gpflow.py:38-86` `AlgebraicOpenGraph` and `199-228` `PlanarAlgebraicOpenGraph` (`planar`). `optim` is
`non_outputs_optim`. -/
structure Aog where
  og : OpenGraph
  planar : Bool

namespace Aog

/-- `_find_gpflow.py:74`. -/
def nonInputs (a : Aog) : List ℕ := (a.og.nodes \ a.og.inputs.toFinset).sort (· ≤ ·)

/-- `_find_gpflow.py:75`. -/
def nonOutputs (a : Aog) : List ℕ := (a.og.nodes \ a.og.outputs.toFinset).sort (· ≤ ·)

/-- `_find_gpflow.py:179-196, 206-228` `_node_measurement_label`. -/
def nodeLabel (a : Aog) (v : ℕ) : Except PyErr Label :=
  if a.planar then do
    let p ← a.og.plane v
    return .plane p
  else a.og.label v

/-- `matrix[i, j] = 1`. -/
def setOne (m : GF2) (i j : ℕ) : GF2 := fun r c => if r = i ∧ c = j then 1 else m r c

/-- `matrix[i, :] = 0`. -/
def zeroRow (m : GF2) (i : ℕ) : GF2 := fun r c => if r = i then 0 else m r c

/-- `_find_gpflow.py:138-141`: the body of the inner loop. -/
def addAdj (a : Aog) (adj : GF2) (u v : ℕ) : GF2 :=
  if u ∈ a.nonOutputs ∧ v ∈ a.nonInputs then setOne adj (a.nonOutputs.idxOf u) (a.nonInputs.idxOf v) else adj

/-- `_find_gpflow.py:116-143` `_compute_reduced_adj`. -/
def reducedAdj (a : Aog) : GF2 :=
  a.og.edges.foldl (fun adj e => a.addAdj (a.addAdj adj e.1 e.2) e.2 e.1) fun _ _ => 0

/-- `_find_gpflow.py:166-175`: one iteration of the loop over the nodes. -/
def demandStep (a : Aog) (mats : GF2 × GF2) (v : ℕ) : Except PyErr (GF2 × GF2) := do
  let i := a.nonOutputs.idxOf v
  let l ← a.nodeLabel v
  let (fd, od) := mats
  let fd := if l = .plane .YZ ∨ l = .plane .XZ ∨ l = .axis .Z then zeroRow fd i else fd
  let fd := if (l = .plane .YZ ∨ l = .plane .XZ ∨ l = .axis .Y ∨ l = .axis .Z) ∧ v ∉ a.og.inputs then
    setOne fd i (a.nonInputs.idxOf v) else fd
  let od := if l = .plane .XY ∨ l = .axis .X ∨ l = .axis .Y ∨ l = .axis .Z then zeroRow od i else od
  let od := if (l = .plane .XY ∨ l = .plane .XZ) ∧ v ∉ a.og.inputs then setOne od i (a.nonInputs.idxOf v) else od
  return (fd, od)

/-- `_find_gpflow.py:166-175`: the loop over the nodes. -/
def demandLoop (a : Aog) : List ℕ → GF2 × GF2 → Except PyErr (GF2 × GF2)
  | [], mats => .ok mats
  | v :: l, mats => do
    let mats ← a.demandStep mats v
    demandLoop a l mats

/-- `_find_gpflow.py:145-177` `_og_matrices`: flow-demand and order-demand matrices. -/
def ogMatrices (a : Aog) : Except PyErr (GF2 × GF2) :=
  a.demandLoop a.nonOutputs (a.reducedAdj, a.reducedAdj)

end Aog

/-- `_find_gpflow.py:313-341` `_find_solvable_nodes`. (When there is no zero row, the condition holds trivially.) -/
def findSolvableNodes (nonOutputs : List ℕ) (nOpt d : ℕ) (kls : GF2) (unsolved : Finset ℕ) : Finset ℕ :=
  let rowIdxs := (List.range nOpt).filter fun i => !kls.rowAny d i
  if rowIdxs ≠ [] then
    unsolved.filter fun v => ∀ i ∈ rowIdxs, kls i (d + nonOutputs.idxOf v) ≠ 1
  else unsolved

/-- `_find_gpflow.py:344-365` `_update_p_matrix`. `none`: `IndexError` in `solve_f2_linear_system`. -/
def updatePMatrix (nonOutputs : List ℕ) (nOpt d : ℕ) (kls : GF2) : List ℕ → GF2 → Option GF2
  | [], p => some p
  | v :: l, p =>
    let j := nonOutputs.idxOf v
    match kls.solve nOpt d fun i => kls i (d + j) with
    | none => none
    | some x => updatePMatrix nonOutputs nOpt d kls l fun t c => if c = j then x t else p t c

/-- `_find_gpflow.py:418-428`: step 12.d.v. -/
def pivotLoop (d k : ℕ) : List ℕ → GF2 → List ℕ → GF2 × List ℕ
  | [], kls, pivots => (kls, pivots)
  | i :: is, kls, pivots =>
    if i = k then pivotLoop d k is kls pivots
    else match kls.leading d i with
      | none => (kls, pivots)
      | some p => pivotLoop d k is (if kls k p = 1 then kls.addRow k i else kls) (pivots ++ [p])

/-- `np.argmax(np.array(pivots) > pk)`: the first position, or 0 when there is none. -/
def argmaxGt (pivots : List ℕ) (pk : ℕ) : ℕ := (pivots.findIdx? (pk < ·)).getD 0

/-- `_find_gpflow.py:436-455`: the new position of row `k`. `if pk` is false for `None` and for 0. -/
def newPos (pk : Option ℕ) (k : ℕ) (pivots : List ℕ) : ℤ :=
  match pk with
  | some (p + 1) =>
    if k ≥ pivots.length then
      if pivots ≠ [] then (argmaxGt pivots (p + 1) : ℤ) - 1 else -1
    else
      let new : ℤ := (argmaxGt pivots (p + 1) : ℤ) - 1
      if new ≥ k then new + 1 else new
  | _ => if k < pivots.length then pivots.length else k

/-- `_find_gpflow.py:385-398` `reorder`; `list.insert` after the end appends. -/
def reorder (perm : List ℕ) (old : ℕ) (new : ℤ) : List ℕ :=
  let val := perm.getD old 0
  let rest := perm.eraseIdx old
  let pos := (new + if new < old then 1 else 0).toNat
  rest.insertIdx (min pos rest.length) val

/-- `_find_gpflow.py:400-461`: the body of the loop for a node `v` of `non_outputs_optim` (`optim`). `shift` is
`n_oi_diff + n_no`. -/
def updateKlsNode (optim : List ℕ) (d shift : ℕ) (kils kls : GF2) (v : ℕ) : Except PyErr GF2 :=
  let nOpt := optim.length
  let j := optim.idxOf v
  let rowIdxs := (List.range nOpt).filter fun i => kls i (shift + j) = 1
  match rowIdxs.getLast? with
  | none => .error .indexError
  | some k =>
    let kls1 : GF2 := fun r c => if r ∈ rowIdxs.dropLast then kls r c + kls k c else kls r c
    let kls2 : GF2 := fun r c => if r = k then kls1 k c + kils j c else kls1 r c
    let (kls3, pivots) := pivotLoop d k (List.range nOpt) kls2 []
    let new := newPos (kls3.leading d k) k pivots
    if new ≠ k then
      let perm := reorder (List.range nOpt) k new
      .ok fun r c => kls3 (perm.getD r r) c
    else .ok kls3

/-- `_find_gpflow.py:368-461` `_update_kls_matrix`. -/
def updateKlsMatrix (optim : List ℕ) (d shift : ℕ) (kils : GF2) : List ℕ → GF2 → Except PyErr GF2
  | [], kls => .ok kls
  | v :: l, kls => do
    let kls ← if v ∈ optim then updateKlsNode optim d shift kils kls v else pure kls
    updateKlsMatrix optim d shift kils l kls

theorem findSolvableNodes_subset (nonOutputs : List ℕ) (nOpt d : ℕ) (kls : GF2) (unsolved : Finset ℕ) :
    findSolvableNodes nonOutputs nOpt d kls unsolved ⊆ unsolved := by
  unfold findSolvableNodes
  simp only []
  split
  · exact Finset.filter_subset _ _
  · exact Finset.Subset.refl _

/-- `_find_gpflow.py:301-310`: the `while` loop of step 12. -/
def pLoop (nonOutputs optim : List ℕ) (ord : SetOrd) (d : ℕ) (kils : GF2) (solved : Finset ℕ) (kls p : GF2) :
    Except PyErr (Option GF2) :=
  if solved = nonOutputs.toFinset then .ok (some p)
  else
    let solvable := findSolvableNodes nonOutputs optim.length d kls (nonOutputs.toFinset \ solved)
    if h : solvable = ∅ then .ok none
    else
      match updatePMatrix nonOutputs optim.length d kls (ord 12 0 solvable) p with
      | none => .error .indexError
      | some p =>
        match updateKlsMatrix optim d (d + nonOutputs.length) kils (ord 13 0 solvable) kls with
        | .error e => .error e
        | .ok kls => pLoop nonOutputs optim ord d kils (solved ∪ solvable) kls p
termination_by (nonOutputs.toFinset \ solved).card
decreasing_by
  obtain ⟨q, hq⟩ := Finset.nonempty_iff_ne_empty.2 h
  refine Finset.card_lt_card ⟨Finset.sdiff_subset_sdiff (Finset.Subset.refl _) Finset.subset_union_left, fun hc => ?_⟩
  have := hc (findSolvableNodes_subset _ _ _ _ _ hq)
  rw [Finset.mem_sdiff, Finset.mem_union] at this
  exact this.2 (Or.inr hq)

/-- `_find_gpflow.py:267-310` `_compute_p_matrix`; `nb` has `n_no + nullity` columns. -/
def computePMatrix (nonOutputs optim : List ℕ) (ord : SetOrd) (d nullity : ℕ) (nb : GF2) : Except PyErr (Option GF2) :=
  let nNo := nonOutputs.length
  let kils : GF2 := fun i j =>
    if j < nullity then nb i (nNo + j) else if j < nullity + nNo then nb i (j - nullity) else GF2.eye i (j - (nullity + nNo))
  let kls := GF2.elimination false optim.length d kils
  pLoop nonOutputs optim ord d kils ∅ kls fun _ _ => 0

namespace Aog

/-- `_find_gpflow.py:464-529` `_compute_correction_matrix_general_case`. -/
def generalCase (a : Aog) (ord : SetOrd) (mmo : MulOrd) (fd od : GF2) : Except PyErr (Option GF2) :=
  let nNo := a.nonOutputs.length
  let nNi := a.nonInputs.length
  let d := a.og.outputs.length - a.og.inputs.length
  match fd.rightInverse nNo nNi with
  | .noInverse => .ok none
  | .indexError => .error .indexError
  | .ok c0 => do
    let (nullity, ker) := fd.nullSpace nNo nNi
    let cPrime := GF2.hstack nNo c0 fun i j => ker j i
    let rowIdxs := (List.range nNo).filter fun i => od.rowAny nNi i
    let p? ← if rowIdxs ≠ [] then
        match GF2.matMul (mmo 0 rowIdxs.length nNi) nNi nNi (fun i j => od (rowIdxs.getD i 0) j) cPrime with
        | none => .error .valueError
        | some nb =>
          let optim := a.nonOutputs.filter fun v => decide (a.nonOutputs.idxOf v ∈ rowIdxs)
          computePMatrix a.nonOutputs optim ord d nullity nb
      else .ok (some fun _ _ => 0)
    match p? with
    | none => return none
    | some p =>
      let cb : GF2 := fun i j => if i < nNo then GF2.eye i j else p (i - nNo) j
      match GF2.matMul (mmo 1 nNi (nNo + nullity)) (nNo + nullity) (nNo + d) cPrime cb with
      | none => throw .valueError
      | some c => return some c

/-- `_find_gpflow.py:603-640` `compute_correction_matrix`. -/
def computeCorrectionMatrix (a : Aog) (ord : SetOrd) (mmo : MulOrd) : Except PyErr (Option GF2) :=
  if a.og.inputs.length > a.og.outputs.length then .ok none
  else do
    let (fd, od) ← a.ogMatrices
    if a.og.inputs.length = a.og.outputs.length then
      match fd.rightInverse a.nonOutputs.length a.nonInputs.length with
      | .noInverse => return none
      | .indexError => throw .indexError
      | .ok c => return some c
    else a.generalCase ord mmo fd od

/-- `_find_gpflow.py:249-264` `to_correction_function`. -/
def toCorrectionFunction (a : Aog) (c : GF2) : PyDict ℕ (Finset ℕ) :=
  a.nonOutputs.map fun node =>
    (node, (((List.range a.nonInputs.length).filter fun j => c j (a.nonOutputs.idxOf node) = 1).map
      fun j => a.nonInputs.getD j 0).toFinset)

end Aog

/-- `_find_gpflow.py:532-567` `_try_ordering_matrix_to_topological_generations` of an `n × n` matrix. -/
def orderingMatrixGenerations (n : ℕ) (ord : Finset ℕ → List ℕ) (m : GF2) : Except PyErr (Option (List (Finset ℕ))) :=
  let neighbors : TopoGen.Dag := fun node => if node < n then some ((Finset.range n).filter fun i => m i node = 1) else none
  let parents (node : ℕ) : ℕ := ((List.range n).filter fun j => m node j = 1).length
  let indegree : PyDict ℕ ℤ := ((List.range n).filter fun i => parents i ≠ 0).map fun i => (i, (parents i : ℤ))
  let zero : Finset ℕ := ((List.range n).filter fun i => parents i = 0).toFinset
  computeTopologicalGenerations neighbors ord indegree zero

namespace Aog

/-- `_find_gpflow.py:570-600` `compute_partial_order_layers`. -/
def partialOrderLayers (a : Aog) (ord : SetOrd) (mmo : MulOrd) (c : GF2) : Except PyErr (Option (List (Finset ℕ))) := do
  let (_, od) ← a.ogMatrices
  let nNo := a.nonOutputs.length
  match GF2.matMul (mmo 2 nNo a.nonInputs.length) a.nonInputs.length a.nonInputs.length od c with
  | none => throw .valueError
  | some nc => do
    match ← orderingMatrixGenerations nNo (ord 14 0) nc with
    | none => return none
    | some gens =>
      return some ((if a.og.outputs ≠ [] then [a.og.outputs.toFinset] else []) ++
        gens.reverse.map fun g => g.image fun i => a.nonOutputs.getD i 0)

/-- `flow/core.py:602-629` `from_correctionmatrix_or_none` after `compute_correction_matrix`. -/
def toFlowOrNone (a : Aog) (ord : SetOrd) (mmo : MulOrd) : Except PyErr (Option Flow) := do
  match ← a.computeCorrectionMatrix ord mmo with
  | none => return none
  | some c => do
    match ← a.partialOrderLayers ord mmo c with
    | none => return none
    | some layers => return some ⟨a.og, a.toCorrectionFunction c, layers⟩

end Aog

namespace OpenGraph

/-- `opengraph.py:490-521` `to_gflow_or_none`. -/
def toGflowOrNone (og : OpenGraph) (ord : SetOrd) (mmo : MulOrd) : Except PyErr (Option Flow) :=
  (Aog.mk og true).toFlowOrNone ord mmo

/-- `opengraph.py:523-574` `to_pauliflow_or_none` (the warning is not modelled). -/
def toPauliflowOrNone (og : OpenGraph) (ord : SetOrd) (mmo : MulOrd) : Except PyErr (Option Flow) :=
  (Aog.mk og false).toFlowOrNone ord mmo

/-- `opengraph.py:404-431` `to_gflow`. -/
def toGflow (og : OpenGraph) (ord : SetOrd) (mmo : MulOrd) : Except PyErr Flow := do
  match ← og.toGflowOrNone ord mmo with
  | none => throw .openGraphError
  | some f => return f

/-- `opengraph.py:433-461` `to_pauliflow`. -/
def toPauliflow (og : OpenGraph) (ord : SetOrd) (mmo : MulOrd) : Except PyErr Flow := do
  match ← og.toPauliflowOrNone ord mmo with
  | none => throw .openGraphError
  | some f => return f

end OpenGraph
end Graphix
