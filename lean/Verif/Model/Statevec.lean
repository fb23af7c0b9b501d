import Verif.Model.Pattern
import Verif.Model.Measurement

/-!
# Model of the state-vector kernels (`graphix/sim/statevec.py`)

The buffer `_psi` is a function from indices to amplitudes (only the indices below `2 ** max_qubits`
exist; theorems state which indices a kernel leaves alone).  Amplitudes are exact complex numbers
(the code uses `complex128`).  Each loop is a fold over the list of its iterations, so that the
in-place updates happen in the order of the code; loops over `prange` may execute their iterations in
any order, which is a parameter (`order`).
-/

namespace Graphix

open Function

/-- Contents of `_psi`. -/
abbrev Buf := ℕ → ℂ

/-- `statevec.py:841-864` `_tensor_jit`. -/
noncomputable def tensorJit (psi other : Buf) (nqubit nqubitOther : ℕ) : Buf :=
  let sizePsi := 2 ^ nqubit
  let sizeOther := 2 ^ nqubitOther
  let maxPsi := sizePsi - 1
  let maxOther := sizeOther - 1
  ((List.range sizePsi).foldl (fun (st : Buf × ℕ) i =>
    let alphaOld := st.1 (maxPsi - i)
    (List.range sizeOther).foldl (fun (st : Buf × ℕ) j =>
      (update st.1 st.2 (alphaOld * other (maxOther - j)), st.2 - 1)) st)
    (psi, sizePsi * sizeOther - 1)).1

/-- The loop `while read_idx >= 0` of `_add_default_node_jit` (`statevec.py:880-887`); the first
argument is `read_idx + 1`. -/
noncomputable def addDefaultNodeLoop : ℕ → ℕ → Buf → Buf
  | 0, _, psi => psi
  | r + 1, w, psi =>
    let v := (1 / Real.sqrt 2 : ℂ) * psi r
    addDefaultNodeLoop r (w - 2) (update (update psi w v) (w - 1) v)

/-- `statevec.py:867-887` `_add_default_node_jit`. -/
noncomputable def addDefaultNodeJit (psi : Buf) (nqubit : ℕ) : Buf :=
  addDefaultNodeLoop (2 ^ nqubit) (2 ^ (nqubit + 1) - 1) psi

/-- The body of the loop of `_swap_jit` (`statevec.py:905-912`). -/
def swapStep (mask1 mask2 : ℕ) (psi : Buf) (i : ℕ) : Buf :=
  if decide (i &&& mask1 ≠ 0) ≠ decide (i &&& mask2 ≠ 0) then
    let j := i ^^^ (mask1 ||| mask2)
    if i < j then update (update psi j (psi i)) i (psi j) else psi
  else psi

/-- `statevec.py:890-912` `_swap_jit`. -/
def swapJit (psi : Buf) (nqubit q1 q2 : ℕ) : Buf :=
  if q1 = q2 then psi
  else (List.range (2 ^ nqubit)).foldl (swapStep (2 ^ (nqubit - 1 - q1)) (2 ^ (nqubit - 1 - q2))) psi

/-- The body of the loops of `_entangle_jit` (`statevec.py:932-937`). -/
def entangleStep (mask : ℕ) (psi : Buf) (i : ℕ) : Buf :=
  if mask &&& i = mask then update psi i (-psi i) else psi

/-- `statevec.py:915-937` `_entangle_jit`; `order` is the order of the iterations (the sequential loop
is `order = range(size_sv)`). -/
def entangleJit (order : List ℕ) (psi : Buf) (nqubit control target : ℕ) : Buf :=
  order.foldl (entangleStep (2 ^ (nqubit - 1 - control) ||| 2 ^ (nqubit - 1 - target))) psi

/-- `statevec.py:943-953` `_compute_op_psi`. -/
noncomputable def computeOpPsi (op : Mat2) (b0 j sizeHalfBlock : ℕ) (psi : Buf) : Buf :=
  let i1 := b0 + j
  let i2 := i1 + sizeHalfBlock
  let psi1 := psi i1
  let psi2 := psi i2
  let psi := update psi i1 (op false false * psi1 + op false true * psi2)
  update psi i2 (op true false * psi1 + op true true * psi2)

/-- `statevec.py:956-986` `_evolve_single_jit`, sequential branch (`nqubit <= NUM_QUBIT_PARALLEL`). -/
noncomputable def evolveSingleSeq (psi : Buf) (op : Mat2) (nqubit q : ℕ) : Buf :=
  let nblocks := 2 ^ q
  let sizeBlock := 2 ^ (nqubit - q)
  let sizeHalfBlock := sizeBlock / 2
  ((List.range nblocks).foldl (fun (st : Buf × ℕ) _ =>
    ((List.range sizeHalfBlock).foldl (fun psi j => computeOpPsi op st.2 j sizeHalfBlock psi) st.1,
      st.2 + sizeBlock)) (psi, 0)).1

/-- The iterations of the two nested loops of the parallel branches (`statevec.py:972-980`), as pairs
`(b, j)`. -/
def blockPairs (nqubit q : ℕ) : List (ℕ × ℕ) :=
  (List.range (2 ^ q)).flatMap (fun b => (List.range (2 ^ (nqubit - q) / 2)).map (fun j => (b, j)))

/-- `statevec.py:971-980` `_evolve_single_jit`, parallel branches, with the iterations executed in the
order `order` (when `nblocks = 1`, `b` is always 0). -/
noncomputable def evolveSinglePar (order : List (ℕ × ℕ)) (psi : Buf) (op : Mat2) (nqubit q : ℕ) : Buf :=
  let sizeBlock := 2 ^ (nqubit - q)
  let sizeHalfBlock := sizeBlock / 2
  order.foldl (fun psi bj => computeOpPsi op (sizeBlock * bj.1) bj.2 sizeHalfBlock psi) psi

/-- `statevec.py:992-1002` `_compute_psic_op_psi`. -/
noncomputable def computePsicOpPsi (psi : Buf) (op : Mat2) (b0 j sizeHalfBlock : ℕ) : ℂ :=
  let i1 := b0 + j
  let i2 := i1 + sizeHalfBlock
  let psi1 := psi i1
  let psi2 := psi i2
  let b1 := op false false * psi1 + op false true * psi2
  let b2 := op true false * psi1 + op true true * psi2
  star psi1 * b1 + star psi2 * b2

/-- `statevec.py:1005-1039` `_expectation_single_jit` with the iterations in the order `order`. -/
noncomputable def expectationSingle (order : List (ℕ × ℕ)) (psi : Buf) (op : Mat2) (nqubit q : ℕ) : ℂ :=
  let sizeBlock := 2 ^ (nqubit - q)
  let sizeHalfBlock := sizeBlock / 2
  order.foldl (fun res bj => res + computePsicOpPsi psi op (sizeBlock * bj.1) bj.2 sizeHalfBlock) 0

/-- One iteration of `_evolve_single_and_compute_norm` (`statevec.py:1045-1070`, `1094-1096`). -/
noncomputable def computeOpPsiNorm (op : Mat2) (b0 j sizeHalfBlock : ℕ) (st : Buf × ℝ × ℝ) : Buf × ℝ × ℝ :=
  let i1 := b0 + j
  let i2 := i1 + sizeHalfBlock
  let psi1 := st.1 i1
  let psi2 := st.1 i2
  let a1 := op false false * psi1 + op false true * psi2
  let a2 := op true false * psi1 + op true true * psi2
  (update (update st.1 i1 a1) i2 a2, st.2.1 + (a1.re * a1.re + a1.im * a1.im),
    st.2.2 + (a2.re * a2.re + a2.im * a2.im))

/-- `statevec.py:1073-1109` `_evolve_single_and_compute_norm` with the iterations in the order
`order`. -/
noncomputable def evolveSingleNorm (order : List (ℕ × ℕ)) (psi : Buf) (op : Mat2) (nqubit q : ℕ) :
    Buf × ℝ × ℝ :=
  let sizeBlock := 2 ^ (nqubit - q)
  let sizeHalfBlock := sizeBlock / 2
  order.foldl (fun st bj => computeOpPsiNorm op (bj.1 * sizeBlock) bj.2 sizeHalfBlock st) (psi, 0, 0)

/-- `statevec.py:1112-1132` `_scale_psi_kernel`; the state is `(psi, b0, k)`. -/
noncomputable def scalePsiKernel (psi : Buf) (nBlocks sizeBlock sizeHalfBlock shift : ℕ) (invNorm : ℝ) : Buf :=
  ((List.range nBlocks).foldl (fun (st : Buf × ℕ × ℕ) _ =>
    let st' := (List.range sizeHalfBlock).foldl (fun (s : Buf × ℕ) j =>
      (update s.1 s.2 (s.1 (st.2.1 + j) * (invNorm : ℂ)), s.2 + 1)) (st.1, st.2.2)
    (st'.1, st.2.1 + sizeBlock, st'.2)) (psi, shift, 0)).1

/-- `statevec.py:1135-1157` `_scale_psi`. -/
noncomputable def scalePsi (psi : Buf) (nBlocks sizeBlock sizeHalfBlock shift : ℕ) (invNorm : ℝ) : Buf :=
  if sizeBlock = 2 then scalePsiKernel psi nBlocks 2 1 shift invNorm
  else if sizeBlock = 4 then scalePsiKernel psi nBlocks 4 2 shift invNorm
  else if sizeBlock = 8 then scalePsiKernel psi nBlocks 8 4 shift invNorm
  else scalePsiKernel psi nBlocks sizeBlock sizeHalfBlock shift invNorm

/-- `statevec.py:1160-1198` `_project_qubit_jit`. -/
noncomputable def projectQubitJit (order : List (ℕ × ℕ)) (psi : Buf) (op : Mat2) (nqubit q : ℕ) (atol : ℝ) :
    Except PyErr (Buf × ℕ) :=
  let nBlocks := 2 ^ q
  let sizeBlock := 2 ^ (nqubit - q)
  let sizeHalfBlock := sizeBlock / 2
  let (psi, norm2₀, norm2₁) := evolveSingleNorm order psi op nqubit q
  let (shift, norm2) := if norm2₀ ≤ atol then (sizeHalfBlock, norm2₁) else (0, norm2₀)
  if norm2 ≤ atol then .error .runtimeError
  else .ok (scalePsi psi nBlocks sizeBlock sizeHalfBlock shift (1 / Real.sqrt norm2), nqubit - 1)

/-- The index read by `np.transpose(psi_tensor, permutation)` at index `i` of the result
(`statevec.py:547-550`): axis `k` of the result is axis `permutation[k]` of the operand, the first axis
being the most significant bit. -/
def permuteIndex (nqubit : ℕ) : List ℕ → ℕ → ℕ → ℕ
  | [], _, _ => 0
  | p :: perm, k, i =>
    (if i.testBit (nqubit - 1 - k) then 2 ^ (nqubit - 1 - p) else 0) + permuteIndex nqubit perm (k + 1) i

/-- `class Statevector` (`statevec.py:52-91`): buffer, number of qubits, capacity. -/
structure Statevector where
  psi : Buf
  nqubit : ℕ
  maxQubits : ℕ

namespace Statevector

/-- `statevec.py:243-259` `ensure_capacity`; `np.empty` leaves arbitrary contents, here `junk`. -/
def ensureCapacity (junk : Buf) (sv : Statevector) (required : ℕ) : Statevector :=
  if sv.maxQubits < required then
    { sv with psi := fun i => if i < 2 ^ sv.maxQubits then sv.psi i else junk i, maxQubits := required }
  else sv

/-- `statevec.py:526-542` `_check_bounds`. -/
def checkBounds (sv : Statevector) (q : ℕ) : Except PyErr Unit :=
  if q < sv.nqubit then .ok () else .error .indexError

/-- `statevec.py:508-524` `tensor`. -/
noncomputable def tensor (junk : Buf) (sv other : Statevector) : Statevector :=
  let sv := sv.ensureCapacity junk (sv.nqubit + other.nqubit)
  { sv with psi := tensorJit sv.psi other.psi sv.nqubit other.nqubit, nqubit := sv.nqubit + other.nqubit }

/-- `Statevector(data=state, nqubit=1)` for a single-qubit state (`statevec.py:154-157`, `169-185`). -/
noncomputable def single (v : Bool → ℂ) : Statevector := ⟨fun i => v (decide (i = 1)), 1, 1⟩

/-- `statevec.py:269-300` `add_nodes(1, data)` for a single-qubit state; the special case is taken when
the object *is* `BasicStates.PLUS`, which is a parameter since equal states may be distinct objects. -/
noncomputable def addNode (junk : Buf) (isPlusObject : Bool) (sv : Statevector) (v : Bool → ℂ) : Statevector :=
  if isPlusObject then
    let sv := sv.ensureCapacity junk (sv.nqubit + 1)
    { sv with psi := addDefaultNodeJit sv.psi sv.nqubit, nqubit := sv.nqubit + 1 }
  else sv.tensor junk (single v)

/-- `statevec.py:302-315` `entangle`. -/
def entangle (order : List ℕ) (sv : Statevector) (q1 q2 : ℕ) : Except PyErr Statevector := do
  sv.checkBounds q1
  sv.checkBounds q2
  return { sv with psi := entangleJit order sv.psi sv.nqubit q1 q2 }

/-- `statevec.py:317-332` `evolve_single`; `order = none` is the sequential branch. -/
noncomputable def evolveSingle (order : Option (List (ℕ × ℕ))) (sv : Statevector) (op : Mat2) (q : ℕ) :
    Except PyErr Statevector := do
  sv.checkBounds q
  return { sv with psi := match order with
    | none => evolveSingleSeq sv.psi op sv.nqubit q
    | some order => evolveSinglePar order sv.psi op sv.nqubit q }

/-- `statevec.py:334-359` `expectation_single`. -/
noncomputable def expectationSingle (order : List (ℕ × ℕ)) (sv : Statevector) (op : Mat2) (q : ℕ) :
    Except PyErr ℂ := do
  sv.checkBounds q
  return Graphix.expectationSingle order sv.psi op sv.nqubit q

/-- `statevec.py:430-495` `project_qubit`. -/
noncomputable def projectQubit (order : List (ℕ × ℕ)) (sv : Statevector) (op : Mat2) (q : ℕ) :
    Except PyErr Statevector := do
  sv.checkBounds q
  let (psi, nqubit) ← projectQubitJit order sv.psi op sv.nqubit q (1 / 10 ^ 10)
  return { sv with psi := psi, nqubit := nqubit }

/-- `statevec.py:497-506` `swap`. -/
def swap (sv : Statevector) (q1 q2 : ℕ) : Statevector := { sv with psi := swapJit sv.psi sv.nqubit q1 q2 }

/-- `statevec.py:1221-1225` `_check_permutation`. -/
def checkPermutation (perm : List ℕ) (nqubit : ℕ) : Except PyErr Unit :=
  if perm.length ≠ nqubit then .error .valueError
  else if perm.toFinset ≠ Finset.range nqubit then .error .valueError
  else .ok ()

/-- `statevec.py:544-550` `permute`. -/
def permute (sv : Statevector) (perm : List ℕ) : Except PyErr Statevector := do
  checkPermutation perm sv.nqubit
  return { sv with psi := fun i => if i < 2 ^ sv.nqubit then sv.psi (permuteIndex sv.nqubit perm 0 i) else sv.psi i }

end Statevector

end Graphix
