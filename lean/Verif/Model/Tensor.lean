import Verif.Model.Pattern
import Verif.Spec.Register

/-!
# Model of the numpy operations used by `graphix/sim/density_matrix.py` and `Statevector.evolve`

numpy is not part of /repo; this file is the meaning given to the calls
`reshape`, `np.tensordot`, `np.moveaxis`, `np.transpose`, `np.trace`, `np.kron`, `np.outer` made by the code.

A matrix is a function of two indices with its shape. A tensor all of whose dimensions are 2 is a function of the list of
its indices (bits). Entries are exact complex numbers.
-/

namespace Graphix

/-- A numpy array with two dimensions. -/
structure NpMat where
  rows : ℕ
  cols : ℕ
  entry : ℕ → ℕ → ℂ

/-- The lists of `n` bits. -/
def bitSet : ℕ → Finset (List Bool)
  | 0 => {[]}
  | n + 1 => (bitSet n).image (false :: ·) ∪ (bitSet n).image (true :: ·)

/-- The number written by a list of bits, most significant first (C order of `reshape`). -/
def ofBits : List Bool → ℕ
  | [] => 0
  | x :: l => x.toNat * 2 ^ l.length + ofBits l

/-- The `n` low bits of `i`, most significant first. -/
def toBits : ℕ → ℕ → List Bool
  | 0, _ => []
  | n + 1, i => i.testBit n :: toBits n i

/-- A numpy array of shape `(2,) * ndim`. -/
structure NdArray where
  ndim : ℕ
  at' : List Bool → ℂ

namespace NdArray

/-- The axes of an array of `nd` dimensions that are not in `axes`, in increasing order. -/
def free (nd : ℕ) (axes : List ℕ) : List ℕ := (List.range nd).filter (· ∉ axes)

/-- The indices of the axes `axes`. -/
def gather (idx : List Bool) (axes : List ℕ) : List Bool := axes.map fun a => idx.getD a false

/-- The index list of length `nd` with the indices `s` at the axes `axes` and `vals` at the other axes. -/
def merge (nd : ℕ) (axes : List ℕ) (s vals : List Bool) : List Bool :=
  (List.range nd).map fun a =>
    if a ∈ axes then s.getD (axes.idxOf a) false else vals.getD ((free nd axes).idxOf a) false

/-- `np.tensordot(a, b, axes=(axA, axB))` (numpy): sum over the axes `axA` of `a` and `axB` of `b` (pairwise); the result has
the remaining axes of `a`, then those of `b`. Axes are distinct and in range at every call. -/
noncomputable def tensordot (a b : NdArray) (axA axB : List ℕ) : NdArray where
  ndim := (free a.ndim axA).length + (free b.ndim axB).length
  at' := fun idx => ∑ s ∈ bitSet axA.length,
    a.at' (merge a.ndim axA s (idx.take (free a.ndim axA).length)) *
      b.at' (merge b.ndim axB s (idx.drop (free a.ndim axA).length))

/-- `np.transpose(a, order)`: axis `i` of the result is axis `order[i]` of `a`. -/
def transpose (a : NdArray) (order : List ℕ) : NdArray where
  ndim := order.length
  at' := fun idx => a.at' ((List.range a.ndim).map fun ax => idx.getD (order.idxOf ax) false)

/-- numpy `normalize_axis_index` (axes are in range at every call). -/
def normAxis (nd : ℕ) (i : ℤ) : ℕ := if i < 0 then (i + nd).toNat else i.toNat

/-- `for dest, src in sorted(zip(destination, source)): order.insert(dest, src)`, from `order` the other axes (numpy
`moveaxis`). -/
def moveOrder (nd : ℕ) (src dst : List ℕ) : List ℕ :=
  ((dst.zip src).mergeSort fun p q => p.1 ≤ q.1).foldl (fun order p => order.insertIdx p.1 p.2) (free nd src)

/-- `np.moveaxis(a, source, destination)`. -/
def moveaxis (a : NdArray) (source destination : List ℤ) : NdArray :=
  a.transpose (moveOrder a.ndim (source.map (normAxis a.ndim)) (destination.map (normAxis a.ndim)))

end NdArray

namespace NpMat

/-- `mat.reshape((2,) * 2 * n)` of a matrix of shape `(2 ** n, 2 ** n)`. -/
def reshape (m : NpMat) (n : ℕ) : NdArray where
  ndim := 2 * n
  at' := fun idx => m.entry (ofBits (idx.take n)) (ofBits (idx.drop n))

/-- `tensor.reshape((2 ** n, 2 ** n))` of a tensor of shape `(2,) * 2 * n`. -/
def ofTensor (n : ℕ) (t : NdArray) : NpMat where
  rows := 2 ^ n
  cols := 2 ^ n
  entry := fun i j => t.at' (toBits n i ++ toBits n j)

/-- `mat.conj().T`. -/
noncomputable def dagger (m : NpMat) : NpMat := ⟨m.cols, m.rows, fun i j => star (m.entry j i)⟩

/-- `np.trace(mat)`. -/
noncomputable def trace (m : NpMat) : ℂ := ∑ i ∈ Finset.range m.rows, m.entry i i

/-- `np.kron(a, b)`. -/
noncomputable def kron (a b : NpMat) : NpMat where
  rows := a.rows * b.rows
  cols := a.cols * b.cols
  entry := fun i j => a.entry (i / b.rows) (j / b.cols) * b.entry (i % b.rows) (j % b.cols)

/-- `np.outer(a, b)` of vectors of length `len`. -/
noncomputable def outer (len : ℕ) (a b : ℕ → ℂ) : NpMat := ⟨len, len, fun i j => a i * b j⟩

/-- `np.eye(len)`. -/
noncomputable def eye (len : ℕ) : NpMat := ⟨len, len, fun i j => if i = j then 1 else 0⟩

/-- A 2x2 matrix (rows and columns indexed by a bit). -/
def ofMat2 (m : Mat2) : NpMat := ⟨2, 2, fun i j => m (decide (i = 1)) (decide (j = 1))⟩

end NpMat

end Graphix
