import Verif.Model.Circuit
import Verif.Model.Channels
import Verif.Model.PauliPushing
import Mathlib.Analysis.Matrix.Order
import Mathlib.LinearAlgebra.Matrix.NonsingularInverse

/-!
# Model of `graphix/random_objects.py`

The random generator is an environment: the answer of the `k`-th call of the generator is `random k`, `integers k n`
(when asked for an integer below `n`) or `shuffle k l` (when asked to shuffle the list `l`). The counter `k` is threaded
through the functions. Arithmetic is exact. An array drawn by one call is given by the answers with numbers
`0, 1, ...`; the drawn complex matrices are arguments. The keyword `stacklevel` and `ensure_rng` (which only choose a generator) are
not modelled.
-/

namespace Graphix

open scoped MatrixOrder

/-- A `numpy.random.Generator`. -/
structure RandEnv where
  random : ℕ → ℝ
  integers : ℕ → ℕ → ℕ
  shuffle : ℕ → {α : Type} → List α → List α

/-- What numpy documents: `random` is in `[0, 1)`, `integers(n)` is below `n`, `shuffle` permutes. -/
structure RandEnv.Ok (env : RandEnv) : Prop where
  random : ∀ k, 0 ≤ env.random k ∧ env.random k < 1
  integers : ∀ k n, 0 < n → env.integers k n < n
  shuffle : ∀ k {α : Type} (l : List α), (env.shuffle k l).Perm l

/-- A Python `Iterable`: a container can be iterated again and again, an iterator (a generator, a `zip`, a `map`, ...) only once. -/
inductive PyIterable (α : Type)
  | container (l : List α)
  | iterator (l : List α)

namespace PyIterable

/-- The elements seen by a `for` loop. -/
def elems {α : Type} : PyIterable α → List α
  | container l => l
  | iterator l => l

/-- The iterable after a (complete) `for` loop. -/
def rest {α : Type} : PyIterable α → PyIterable α
  | container l => container l
  | iterator _ => iterator []

end PyIterable

/-! ### Random circuits -/

/-- `random_objects.py:204-217` `_first_rotation` on the remaining qubits. -/
def firstRotation (env : RandEnv) (c : Circuit) (k : ℕ) : List ℕ → Except PyErr (Circuit × ℕ)
  | [] => .ok (c, k)
  | q :: l => do
    let c ← c.add (.RX q (env.random k))
    firstRotation env c (k + 1) l

/-- `random_objects.py:220-234` `_mid_rotation` on the remaining qubits. -/
def midRotation (env : RandEnv) (c : Circuit) (k : ℕ) : List ℕ → Except PyErr (Circuit × ℕ)
  | [] => .ok (c, k)
  | q :: l => do
    let c ← c.add (.RX q (env.random k))
    let c ← c.add (.RZ q (env.random (k + 1)))
    midRotation env c (k + 2) l

/-- `random_objects.py:237-250` `_last_rotation` on the remaining qubits. -/
def lastRotation (env : RandEnv) (c : Circuit) (k : ℕ) : List ℕ → Except PyErr (Circuit × ℕ)
  | [] => .ok (c, k)
  | q :: l => do
    let c ← c.add (.RZ q (env.random k))
    lastRotation env c (k + 1) l

/-- `random_objects.py:253-264` `_entangler` on the elements of `pairs`. -/
def entangler (c : Circuit) : List (ℕ × ℕ) → Except PyErr Circuit
  | [] => .ok c
  | (a, b) :: l => do
    let c ← c.add (.CNOT a b)
    entangler c l

/-- `random_objects.py:267-280` `_entangler_rzz` on the elements of `pairs`. -/
def entanglerRzz (env : RandEnv) (c : Circuit) (k : ℕ) : List (ℕ × ℕ) → Except PyErr (Circuit × ℕ)
  | [] => .ok (c, k)
  | (a, b) :: l => do
    let c ← c.add (.RZZ a b (env.random k))
    entanglerRzz env c (k + 1) l

/-- `random_objects.py:317-322`: the loop of `rand_gate`. -/
def randGateLoop (env : RandEnv) (nqubits : ℕ) (useRzz : Bool) (c : Circuit) (k : ℕ) (pairs : PyIterable (ℕ × ℕ)) :
    ℕ → Except PyErr (Circuit × ℕ)
  | 0 => .ok (c, k)
  | d + 1 => do
    let (c, k) ← midRotation env c k (List.range nqubits)
    if useRzz then
      let (c, k) ← entanglerRzz env c k pairs.elems
      randGateLoop env nqubits useRzz c k pairs.rest d
    else
      let c ← entangler c pairs.elems
      randGateLoop env nqubits useRzz c k pairs.rest d

/-- `random_objects.py:283-324` `rand_gate`. -/
def randGate (env : RandEnv) (nqubits depth : ℕ) (pairs : PyIterable (ℕ × ℕ)) (useRzz : Bool) : Except PyErr Circuit := do
  let (c, k) ← firstRotation env (Circuit.new nqubits) 0 (List.range nqubits)
  let c ← entangler c pairs.elems
  let (c, k) ← randGateLoop env nqubits useRzz c k pairs.rest (depth - 1)
  let (c, _) ← lastRotation env c k (List.range nqubits)
  return c

/-- `random_objects.py:327-348` `_genpair`: all the pairs yielded, `choice` being shuffled in place. -/
def genPairs (env : RandEnv) (k : ℕ) (choice : List ℕ) : ℕ → Except PyErr (List (ℕ × ℕ) × ℕ)
  | 0 => .ok ([], k)
  | count + 1 =>
    let choice := env.shuffle k choice
    match choice with
    | x :: y :: _ => do
      let (l, k) ← genPairs env (k + 1) choice count
      return ((x, y) :: l, k)
    | _ => .error .valueError

/-- `random_objects.py:351-372` `_gentriplet`. -/
def genTriplets (env : RandEnv) (k : ℕ) (choice : List ℕ) : ℕ → Except PyErr (List (ℕ × ℕ × ℕ) × ℕ)
  | 0 => .ok ([], k)
  | count + 1 =>
    let choice := env.shuffle k choice
    match choice with
    | x :: y :: z :: _ => do
      let (l, k) ← genTriplets env (k + 1) choice count
      return ((x, y, z) :: l, k)
    | _ => .error .valueError

/-- `random_objects.py:415-419` `parametric_gate_choice`: `parameters` is iterated once for each of the three rotations.
The parameters are given by their values. -/
def parametricGateChoice (parameters : PyIterable ℝ) : List (ℕ → Instr) :=
  parameters.elems.map (fun θ q => .RX q θ) ++ parameters.rest.elems.map (fun θ q => .RY q θ) ++
    parameters.rest.rest.elems.map (fun θ q => .RZ q θ)

/-- `random_objects.py:420-431` `gate_choice`. -/
noncomputable def gateChoice (parameters : PyIterable ℝ) (useJ : Bool) : List (ℕ → Instr) :=
  [fun q => .RY q (1 / 4), fun q => .RZ q (-1 / 4), fun q => .RX q (-1 / 4), .H, .S, .X, .Z, .Y] ++
    parametricGateChoice parameters ++ (if useJ then [fun q => .J q (1 / 4)] else [])

/-- `random_objects.py:446-448`: the single-qubit gates of a layer. -/
def singleGates (env : RandEnv) (gates : List (ℕ → Instr)) (c : Circuit) (k : ℕ) : List ℕ → Except PyErr (Circuit × ℕ)
  | [] => .ok (c, k)
  | q :: l =>
    match gates[env.integers k gates.length]? with
    | none => .error .indexError
    | some g => do
      let c ← c.add (g q)
      singleGates env gates c (k + 1) l

/-- The keyword arguments of `rand_circuit` (`random_objects.py:375-386`). -/
structure RandOpts where
  useJ : Bool := true
  useCz : Bool := true
  useRzz : Bool := false
  useCcx : Bool := false
  parameters : PyIterable ℝ := .container []

/-- `for j, k in _genpair(nqubits, 2, rng): ...` (`random_objects.py:433-440`, 444-445): `gate` is the gate added. -/
def addPairs (env : RandEnv) (nqubits : ℕ) (gate : ℕ → ℕ → Instr) (c : Circuit) (k : ℕ) : Except PyErr (Circuit × ℕ) := do
  let (l, k) ← genPairs env k (List.range nqubits) 2
  let c ← c.extend (l.map fun p => gate p.1 p.2)
  return (c, k)

/-- `for j, k, l in _gentriplet(nqubits, 2, rng): ...` (`random_objects.py:442-443`). -/
def addTriplets (env : RandEnv) (nqubits : ℕ) (c : Circuit) (k : ℕ) : Except PyErr (Circuit × ℕ) := do
  let (l, k) ← genTriplets env k (List.range nqubits) 2
  let c ← c.extend (l.map fun p => .CCX p.1 p.2.1 p.2.2)
  return (c, k)

/-- `random_objects.py:433-448`: one layer of `rand_circuit`. -/
noncomputable def randLayer (env : RandEnv) (nqubits : ℕ) (opts : RandOpts) (gates : List (ℕ → Instr)) (c : Circuit) (k : ℕ) :
    Except PyErr (Circuit × ℕ) := do
  let (c, k) ← addPairs env nqubits .CNOT c k
  let (c, k) ← (if opts.useCz then addPairs env nqubits .CZ c k else .ok (c, k) : Except PyErr (Circuit × ℕ))
  let (c, k) ← (if opts.useRzz then addPairs env nqubits (fun j k => .RZZ j k (1 / 4)) c k else .ok (c, k) : Except PyErr (Circuit × ℕ))
  let (c, k) ← (if opts.useCcx then addTriplets env nqubits c k else .ok (c, k) : Except PyErr (Circuit × ℕ))
  let (c, k) ← addPairs env nqubits .SWAP c k
  singleGates env gates c k (List.range nqubits)

/-- `random_objects.py:432-448`: the loop of `rand_circuit`. -/
noncomputable def randLayers (env : RandEnv) (nqubits : ℕ) (opts : RandOpts) (gates : List (ℕ → Instr)) (c : Circuit) (k : ℕ) :
    ℕ → Except PyErr Circuit
  | 0 => .ok c
  | d + 1 => do
    let (c, k) ← randLayer env nqubits opts gates c k
    randLayers env nqubits opts gates c k d

/-- `random_objects.py:375-449` `rand_circuit`. -/
noncomputable def randCircuit (env : RandEnv) (nqubits depth : ℕ) (opts : RandOpts) : Except PyErr Circuit :=
  randLayers env nqubits opts (gateChoice opts.parameters opts.useJ) (Circuit.new nqubits) 0 depth

/-! ### Random matrices -/

/-- `random_objects.py:31-35` `rand_herm`: `re` and `im` are the two arrays drawn. -/
noncomputable def randHerm {sz : ℕ} (re im : Matrix (Fin sz) (Fin sz) ℝ) : Matrix (Fin sz) (Fin sz) ℂ :=
  let tmp : Matrix (Fin sz) (Fin sz) ℂ := Matrix.of fun i j => (re i j : ℂ) + Complex.I * im i j
  tmp + tmp.conjTranspose

/-- `random_objects.py:38-43` `rand_unit`: `u` is the answer of `scipy.stats.unitary_group.rvs`. -/
noncomputable def randUnit (env : RandEnv) {sz : ℕ} (u : Matrix (Fin sz) (Fin sz) ℂ) : Matrix (Fin sz) (Fin sz) ℂ :=
  if sz = 1 then Matrix.of fun _ _ => Complex.exp (Complex.I * env.random 0 * 2 * Real.pi) else u

/-- `random_objects.py:49-80` `rand_dm`: `evals` are the eigenvalues drawn (`rank` of them), `u` the answer of `rand_unit`. The division by a
zero sum (a matrix of NaN in Python) is not modelled. -/
noncomputable def randDm {dim : ℕ} (evals : List ℝ) (u : Matrix (Fin dim) (Fin dim) ℂ) :
    Except PyErr (Matrix (Fin dim) (Fin dim) ℂ) :=
  if dim < evals.length then .error .valueError
  else
    let padded : Fin dim → ℝ := fun i => evals.getD i 0
    let dm : Matrix (Fin dim) (Fin dim) ℂ := Matrix.diagonal fun i => ((padded i / ∑ j, padded j : ℝ) : ℂ)
    .ok (u * dm * u.transpose.map star)

open scoped Classical in
/-- `random_objects.py:120-154` `rand_channel_kraus`: `pre` are the `rank` matrices drawn by `rand_gauss_cpx_mat`.
`scipy.linalg.sqrtm` is the principal square root; `scipy.linalg.inv` raises `LinAlgError`, a subclass of `ValueError`, on a singular matrix.
`KrausData` (`channels.py:56-60`) refuses a size that is not a power of two. -/
noncomputable def randChannelKraus {dim : ℕ} (pre : List (Matrix (Fin dim) (Fin dim) ℂ)) : Except PyErr (KrausChannel (Fin dim)) :=
  if pre.length < 1 then .error .valueError
  else
    let h := (pre.map fun m => m.transpose.map star * m).sum
    let s := CFC.sqrt h
    if s.det = 0 then .error .valueError
    else if ¬ (0 < dim ∧ dim &&& (dim - 1) = 0) then .error .valueError
    else KrausChannel.make (Nat.log2 dim) (pre.map fun m => ⟨1, m * s⁻¹⟩)

/-- `itertools.product((I, X, Y, Z), repeat=n)`, in order. -/
def pauliWords : (n : ℕ) → List (Fin n → IXYZ)
  | 0 => [Fin.elim0]
  | n + 1 => [IXYZ.I, .axis .X, .axis .Y, .axis .Z].flatMap fun P => (pauliWords n).map fun w => Fin.cons P w

/-- `functools.reduce(np.kron, ...)` of the matrices of a word; rows and columns are indexed by the bits, most significant first. -/
noncomputable def pauliTensor {n : ℕ} (w : Fin n → IXYZ) : Matrix (Fin n → Bool) (Fin n → Bool) ℂ :=
  Matrix.of fun x y => ∏ i, Ops.fromIxyz (w i) (x i) (y i)

/-- `ops.py:227-245` `Ops.build_tensor_pauli_ops`. -/
noncomputable def buildTensorPauliOps (n : ℕ) : Except PyErr (List (Matrix (Fin n → Bool) (Fin n → Bool) ℂ)) :=
  if n < 1 then .error .valueError else .ok ((pauliWords n).map pauliTensor)

open scoped Classical in
/-- `random_objects.py:159-201` `rand_pauli_channel_kraus`, for `dim ≥ 1` (`np.log2(0)` overflows). `params[i]` raises `IndexError` when
fewer than `rank` probabilities are nonzero. -/
noncomputable def randPauliChannelKraus (env : RandEnv) (dim : ℕ) (rank : Option ℕ) :
    Except PyErr (KrausChannel (Fin (Nat.log2 dim) → Bool)) :=
  if dim &&& (dim - 1) ≠ 0 then .error .valueError
  else if rank.any (· < 1) then .error .valueError
  else
    let rank := rank.getD (dim ^ 2)
    let draws := (List.range rank).map env.random
    let probs := draws.map (· / draws.sum)
    if dim ^ 2 < rank then .error .valueError
    else
      let probList := env.shuffle rank (probs ++ List.replicate (dim ^ 2 - rank) 0)
      match buildTensorPauliOps (Nat.log2 dim) with
      | .error e => .error e
      | .ok ops =>
        let sel := (probList.zip ops).filter fun p => p.1 ≠ 0
        if sel.length < rank then .error .indexError
        else KrausChannel.make (Nat.log2 dim) ((sel.take rank).map fun p => ⟨csqrt p.1, p.2⟩)

/-- `random_objects.py:452-470` `rand_state_vector`: the two rows of the drawn array are given by the answers `0, ..., dim - 1` and
`dim, ..., 2 dim - 1`. -/
noncomputable def randStateVector (env : RandEnv) (nqubits : ℕ) : Fin (2 ^ nqubits) → ℂ :=
  let vec : Fin (2 ^ nqubits) → ℂ := fun i => ((env.random i - 1 / 2 : ℝ) : ℂ) + Complex.I * ((env.random (2 ^ nqubits + i) - 1 / 2 : ℝ) : ℂ)
  fun i => vec i / (Real.sqrt (∑ j, Complex.normSq (vec j)) : ℂ)

end Graphix
