import Mathlib.Data.ZMod.Basic
import Mathlib.Algebra.BigOperators.Group.List.Basic

/-!
# Model of `graphix/_linalg.py`

Binary matrices are functions `ℕ → ℕ → ZMod 2` together with the numbers of rows and columns given to each
function (`uint8` entries equal to 0 or 1; `^` is `+`).  Entries outside of the shape are never read.
The element-by-element copies and exclusive-ors of a row are modelled as one operation on the row.
-/

namespace Graphix

/-- Contents of a binary matrix. -/
abbrev GF2 := ℕ → ℕ → ZMod 2

namespace GF2

/-- `_linalg.py:287-288`: swap rows `i` and `p`. -/
def swapRows (a : GF2) (i p : ℕ) : GF2 := fun r =>
  if r = i then a p else if r = p then a i else a r

/-- `_linalg.py:294-295, 300-301`: `mat_data[k, :] ^= mat_data[p, :]`. -/
def addRow (a : GF2) (k p : ℕ) : GF2 := fun r l => if r = k then a k l + a p l else a r l

/-- `_linalg.py:279-283`: first row `i ≥ p` with a 1 in column `j`. -/
def findPivot (a : GF2) (m p j : ℕ) : Option ℕ :=
  (List.range' p (m - p)).find? fun i => a i j = 1

/-- `_linalg.py:290-301`: eliminate column `j` with row `p`, from every other row (`full`) or from the rows
below. -/
def eliminate (full : Bool) (m p j : ℕ) (a : GF2) : GF2 :=
  if full then
    (List.range m).foldl (fun a k => if a k j = 1 ∧ k ≠ p then a.addRow k p else a) a
  else
    (List.range' (p + 1) (m - (p + 1))).foldl (fun a k => if a k j = 1 then a.addRow k p else a) a

/-- `_linalg.py:277-307`: the loop over the columns. -/
def elimLoop (full : Bool) (m : ℕ) : List ℕ → ℕ → GF2 → GF2
  | [], _, a => a
  | j :: js, p, a =>
    match findPivot a m p j with
    | none => elimLoop full m js p a
    | some i =>
      let a := if i ≠ p then a.swapRows i p else a
      let a := eliminate full m p j a
      if p + 1 = m then a else elimLoop full m js (p + 1) a

/-- `_linalg.py:242-307` `_elimination_jit`; `gauss_elimination` (135-154) is `full = false`,
`row_reduction` (156-175) is `full = true`; `ncols` is the number of columns by default. -/
def elimination (full : Bool) (m ncols : ℕ) (a : GF2) : GF2 :=
  elimLoop full m (List.range ncols) 0 a

/-- `mat[r, :n].any()`. -/
def rowAny (a : GF2) (n r : ℕ) : Bool := (List.range n).any fun l => a r l = 1

/-- `np.count_nonzero(mat[:, :n].any(axis=1))`. -/
def countNonzeroRows (a : GF2) (m n : ℕ) : ℕ := ((List.range m).filter fun r => a.rowAny n r).length

/-- `_linalg.py:67-76` `rank` of an `m × n` matrix. -/
def rank (m n : ℕ) (a : GF2) : ℕ := (elimination true m n a).countNonzeroRows m n

/-- `np.eye`. -/
def eye : GF2 := fun i j => if i = j then 1 else 0

/-- `np.hstack([a, b])` with `a` of `n` columns. -/
def hstack (n : ℕ) (a b : GF2) : GF2 := fun i j => if j < n then a i j else b i (j - n)

/-- `np.flatnonzero(mat[r, :n])[0]` (`None`: `IndexError`). -/
def leading (a : GF2) (n r : ℕ) : Option ℕ := (List.range n).find? fun l => a r l = 1

/-- `_linalg.py:106-112`: the loop filling the right inverse. -/
def rinvLoop (n m : ℕ) (red : GF2) : List ℕ → GF2 → Option GF2
  | [], rinv => some rinv
  | i :: is, rinv =>
    match leading red (n + m) i with
    | none => none
    | some j => rinvLoop n m red is (fun r c => if r = j then red i (n + c) else rinv r c)

/-- Result of `right_inverse`: a matrix, `None`, or an `IndexError`. -/
inductive RightInverse
  | ok (b : GF2)
  | noInverse
  | indexError

/-- `_linalg.py:78-112` `right_inverse` of an `m × n` matrix. -/
def rightInverse (m n : ℕ) (a : GF2) : RightInverse :=
  if n < m then .noInverse
  else
    let aug := hstack n a eye
    let red := elimination true m n aug
    if m ≠ red.countNonzeroRows m n then .noInverse
    else match rinvLoop n m red (List.range m) (fun _ _ => 0) with
      | some b => .ok b
      | none => .indexError

/-- `_linalg.py:114-133` `null_space` of an `m × n` matrix: the number of rows of the result and the result.
(The call of `gauss_elimination` on line 130 works in place: `np.hstack` returns a C-contiguous array.) -/
def nullSpace (m n : ℕ) (a : GF2) : ℕ × GF2 :=
  let ref := hstack m (fun i j => a j i) eye
  let ref := elimination false n m ref
  let rowIdxs := (List.range n).filter fun r => !ref.rowAny m r
  (rowIdxs.length, fun r c => ref (rowIdxs.getD r 0) (m + c))

/-- `_linalg.py:211-220`: the number of rows before the first zero row. -/
def firstZeroRow (a : GF2) (m n : ℕ) : ℕ :=
  ((List.range m).find? fun i => !a.rowAny n i).getD m

/-- `_linalg.py:223-237`: one step of back substitution on row `i` (whose pivot is `pivot`). -/
def backStep (a : GF2) (n : ℕ) (b x : ℕ → ZMod 2) (i pivot : ℕ) : ℕ → ZMod 2 :=
  let acc := (List.range' pivot (n - pivot)).foldl (fun acc k => if a i k = 1 then acc + x k else acc) 0
  Function.update x pivot (b i + acc)

/-- `_linalg.py:223-237`: back substitution on the rows `is`.  `None` when a row has no pivot, which does not
happen since the rows before `m_nonzero` are not zero. -/
def backSubst (a : GF2) (n : ℕ) (b : ℕ → ZMod 2) : List ℕ → (ℕ → ZMod 2) → Option (ℕ → ZMod 2)
  | [], x => some x
  | i :: is, x =>
    match leading a n i with
    | none => none
    | some pivot => backSubst a n b is (backStep a n b x i pivot)

/-- `_linalg.py:178-239` `solve_f2_linear_system`. -/
def solve (m n : ℕ) (a : GF2) (b : ℕ → ZMod 2) : Option (ℕ → ZMod 2) :=
  backSubst a n b (List.range (firstZeroRow a m n)).reverse (fun _ => 0)

/-- `_linalg.py:310-327` `_mat_mul_jit`: the iterations of the two parallel loops are run in the order
`order` (of the pairs `(i, k)`). -/
def matMulLoop (order : List (ℕ × ℕ)) (a b : GF2) : GF2 :=
  order.foldl (fun res (ik : ℕ × ℕ) => if a ik.1 ik.2 = 1 then
    fun r j => if r = ik.1 then res ik.1 j + b ik.2 j else res r j else res) (fun _ _ => 0)

/-- `_linalg.py:38-65` `mat_mul` of matrices of shapes `m × l` and `l' × n`; `none`: `ValueError`. -/
def matMul (order : List (ℕ × ℕ)) (l l' : ℕ) (a b : GF2) : Option GF2 :=
  if l ≠ l' then none else some (matMulLoop order a b)

end GF2
end Graphix
