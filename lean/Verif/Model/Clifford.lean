import Verif.Model.Fundamentals

/-!
# Model of `graphix/_db.py` and `graphix/clifford.py`

The tables are transcribed entry by entry.  The matrices `_C0.._C23` of `_db.py:15-38` have entries
`(Gaussian integer) / sqrt(2)^k` with `k = 0` (no division), `1` (`/ np.sqrt(2)`) or `2` (`/ 2`).
-/

namespace Graphix

/-- Gaussian integers, used to transcribe the matrix entries exactly. -/
structure GI where
  re : Int
  im : Int
  deriving DecidableEq, Repr

/-- `Clifford` (`clifford.py:42-76`): an enum with values 0..23. -/
def Clifford := Fin 24
  deriving DecidableEq, Repr

instance : Fintype Clifford := inferInstanceAs (Fintype (Fin 24))

/-- A transcribed matrix: entries row by row, over `sqrt(2)^k`. -/
structure CMat where
  k : Nat
  a : GI
  b : GI
  c : GI
  d : GI
  deriving DecidableEq, Repr

/-- `_db.py:15-66` `CLIFFORD` (with `Ops.I ... Ops.H` from `ops.py:28-34`). -/
def cliffordTable : List CMat := [
  ⟨0, ⟨1, 0⟩, ⟨0, 0⟩, ⟨0, 0⟩, ⟨1, 0⟩⟩,
  ⟨0, ⟨0, 0⟩, ⟨1, 0⟩, ⟨1, 0⟩, ⟨0, 0⟩⟩,
  ⟨0, ⟨0, 0⟩, ⟨0, -1⟩, ⟨0, 1⟩, ⟨0, 0⟩⟩,
  ⟨0, ⟨1, 0⟩, ⟨0, 0⟩, ⟨0, 0⟩, ⟨-1, 0⟩⟩,
  ⟨0, ⟨1, 0⟩, ⟨0, 0⟩, ⟨0, 0⟩, ⟨0, 1⟩⟩,
  ⟨0, ⟨1, 0⟩, ⟨0, 0⟩, ⟨0, 0⟩, ⟨0, -1⟩⟩,
  ⟨1, ⟨1, 0⟩, ⟨1, 0⟩, ⟨1, 0⟩, ⟨-1, 0⟩⟩,
  ⟨1, ⟨1, 0⟩, ⟨0, -1⟩, ⟨0, -1⟩, ⟨1, 0⟩⟩,
  ⟨1, ⟨1, 0⟩, ⟨-1, 0⟩, ⟨1, 0⟩, ⟨1, 0⟩⟩,
  ⟨1, ⟨0, 0⟩, ⟨1, -1⟩, ⟨-1, -1⟩, ⟨0, 0⟩⟩,
  ⟨1, ⟨0, 0⟩, ⟨-1, -1⟩, ⟨1, -1⟩, ⟨0, 0⟩⟩,
  ⟨1, ⟨1, 0⟩, ⟨-1, 0⟩, ⟨-1, 0⟩, ⟨-1, 0⟩⟩,
  ⟨1, ⟨-1, 0⟩, ⟨-1, 0⟩, ⟨1, 0⟩, ⟨-1, 0⟩⟩,
  ⟨1, ⟨0, 1⟩, ⟨-1, 0⟩, ⟨1, 0⟩, ⟨0, -1⟩⟩,
  ⟨1, ⟨0, 1⟩, ⟨1, 0⟩, ⟨-1, 0⟩, ⟨0, -1⟩⟩,
  ⟨1, ⟨-1, 0⟩, ⟨0, -1⟩, ⟨0, -1⟩, ⟨-1, 0⟩⟩,
  ⟨2, ⟨-1, 1⟩, ⟨1, 1⟩, ⟨-1, 1⟩, ⟨-1, -1⟩⟩,
  ⟨2, ⟨-1, 1⟩, ⟨-1, -1⟩, ⟨1, -1⟩, ⟨-1, -1⟩⟩,
  ⟨2, ⟨1, 1⟩, ⟨1, -1⟩, ⟨-1, -1⟩, ⟨1, -1⟩⟩,
  ⟨2, ⟨-1, -1⟩, ⟨1, -1⟩, ⟨-1, -1⟩, ⟨-1, 1⟩⟩,
  ⟨2, ⟨-1, -1⟩, ⟨-1, -1⟩, ⟨1, -1⟩, ⟨-1, 1⟩⟩,
  ⟨2, ⟨-1, 1⟩, ⟨-1, 1⟩, ⟨1, 1⟩, ⟨-1, -1⟩⟩,
  ⟨2, ⟨1, 1⟩, ⟨-1, -1⟩, ⟨1, -1⟩, ⟨1, -1⟩⟩,
  ⟨2, ⟨-1, 1⟩, ⟨1, -1⟩, ⟨-1, -1⟩, ⟨-1, -1⟩⟩]

/-- `_db.py:98-123` `CLIFFORD_MUL`. -/
def cliffordMulTable : List (List (Fin 24)) := [
  [0, 1, 2, 3, 4, 5, 6, 7, 8, 9, 10, 11, 12, 13, 14, 15, 16, 17, 18, 19, 20, 21, 22, 23],
  [1, 0, 3, 2, 9, 10, 8, 15, 6, 4, 5, 12, 11, 14, 13, 7, 19, 18, 17, 16, 22, 23, 20, 21],
  [2, 3, 0, 1, 10, 9, 11, 13, 12, 5, 4, 6, 8, 7, 15, 14, 17, 16, 19, 18, 23, 22, 21, 20],
  [3, 2, 1, 0, 5, 4, 12, 14, 11, 10, 9, 8, 6, 15, 7, 13, 18, 19, 16, 17, 21, 20, 23, 22],
  [4, 10, 9, 5, 3, 0, 20, 16, 23, 1, 2, 22, 21, 19, 18, 17, 14, 13, 7, 15, 12, 6, 8, 11],
  [5, 9, 10, 4, 0, 3, 21, 18, 22, 2, 1, 23, 20, 17, 16, 19, 7, 15, 14, 13, 6, 12, 11, 8],
  [6, 12, 11, 8, 19, 16, 0, 20, 3, 17, 18, 2, 1, 23, 22, 21, 5, 9, 10, 4, 7, 15, 14, 13],
  [7, 15, 14, 13, 21, 22, 19, 1, 16, 23, 20, 17, 18, 2, 3, 0, 6, 12, 11, 8, 5, 9, 10, 4],
  [8, 11, 12, 6, 16, 19, 1, 22, 2, 18, 17, 3, 0, 21, 20, 23, 10, 4, 5, 9, 15, 7, 13, 14],
  [9, 5, 4, 10, 2, 1, 22, 19, 21, 0, 3, 20, 23, 16, 17, 18, 13, 14, 15, 7, 11, 8, 6, 12],
  [10, 4, 5, 9, 1, 2, 23, 17, 20, 3, 0, 21, 22, 18, 19, 16, 15, 7, 13, 14, 8, 11, 12, 6],
  [11, 8, 6, 12, 18, 17, 2, 23, 1, 16, 19, 0, 3, 20, 21, 22, 9, 5, 4, 10, 13, 14, 15, 7],
  [12, 6, 8, 11, 17, 18, 3, 21, 0, 19, 16, 1, 2, 22, 23, 20, 4, 10, 9, 5, 14, 13, 7, 15],
  [13, 14, 15, 7, 22, 21, 18, 3, 17, 20, 23, 16, 19, 0, 1, 2, 11, 8, 6, 12, 9, 5, 4, 10],
  [14, 13, 7, 15, 20, 23, 17, 2, 18, 22, 21, 19, 16, 1, 0, 3, 12, 6, 8, 11, 4, 10, 9, 5],
  [15, 7, 13, 14, 23, 20, 16, 0, 19, 21, 22, 18, 17, 3, 2, 1, 8, 11, 12, 6, 10, 4, 5, 9],
  [16, 17, 18, 19, 6, 8, 15, 10, 14, 11, 12, 13, 7, 9, 5, 4, 20, 21, 22, 23, 0, 1, 2, 3],
  [17, 16, 19, 18, 11, 12, 14, 4, 15, 6, 8, 7, 13, 5, 9, 10, 23, 22, 21, 20, 2, 3, 0, 1],
  [18, 19, 16, 17, 12, 11, 13, 9, 7, 8, 6, 15, 14, 10, 4, 5, 21, 20, 23, 22, 3, 2, 1, 0],
  [19, 18, 17, 16, 8, 6, 7, 5, 13, 12, 11, 14, 15, 4, 10, 9, 22, 23, 20, 21, 1, 0, 3, 2],
  [20, 21, 22, 23, 15, 14, 4, 12, 5, 13, 7, 9, 10, 11, 8, 6, 0, 1, 2, 3, 16, 17, 18, 19],
  [21, 20, 23, 22, 13, 7, 5, 6, 4, 15, 14, 10, 9, 8, 11, 12, 3, 2, 1, 0, 18, 19, 16, 17],
  [22, 23, 20, 21, 7, 13, 9, 11, 10, 14, 15, 4, 5, 12, 6, 8, 1, 0, 3, 2, 19, 18, 17, 16],
  [23, 22, 21, 20, 14, 15, 10, 8, 9, 7, 13, 5, 4, 6, 12, 11, 2, 3, 0, 1, 17, 16, 19, 18]]

/-- `_db.py:126` `CLIFFORD_CONJ`. -/
def cliffordConjTable : List (Fin 24) :=
  [0, 1, 2, 3, 5, 4, 6, 15, 12, 9, 10, 11, 8, 13, 14, 7, 20, 22, 23, 21, 16, 19, 17, 18]

/-- `_db.py:147-172` `CLIFFORD_MEASURE`: images of X, Y, Z. -/
def cliffordMeasureTable : List ((Axis × Sign) × (Axis × Sign) × (Axis × Sign)) := [
  ((.X, .plus), (.Y, .plus), (.Z, .plus)),
  ((.X, .plus), (.Y, .minus), (.Z, .minus)),
  ((.X, .minus), (.Y, .plus), (.Z, .minus)),
  ((.X, .minus), (.Y, .minus), (.Z, .plus)),
  ((.Y, .minus), (.X, .plus), (.Z, .plus)),
  ((.Y, .plus), (.X, .minus), (.Z, .plus)),
  ((.Z, .plus), (.Y, .minus), (.X, .plus)),
  ((.X, .plus), (.Z, .minus), (.Y, .plus)),
  ((.Z, .plus), (.Y, .plus), (.X, .minus)),
  ((.Y, .minus), (.X, .minus), (.Z, .minus)),
  ((.Y, .plus), (.X, .plus), (.Z, .minus)),
  ((.Z, .minus), (.Y, .minus), (.X, .minus)),
  ((.Z, .minus), (.Y, .plus), (.X, .plus)),
  ((.X, .minus), (.Z, .minus), (.Y, .minus)),
  ((.X, .minus), (.Z, .plus), (.Y, .plus)),
  ((.X, .plus), (.Z, .plus), (.Y, .minus)),
  ((.Z, .plus), (.X, .plus), (.Y, .plus)),
  ((.Z, .minus), (.X, .plus), (.Y, .minus)),
  ((.Z, .minus), (.X, .minus), (.Y, .plus)),
  ((.Z, .plus), (.X, .minus), (.Y, .minus)),
  ((.Y, .plus), (.Z, .plus), (.X, .plus)),
  ((.Y, .minus), (.Z, .minus), (.X, .plus)),
  ((.Y, .plus), (.Z, .minus), (.X, .minus)),
  ((.Y, .minus), (.Z, .plus), (.X, .minus))]

/-- `_db.py:175-200` `CLIFFORD_HSZ_DECOMPOSITION`. -/
def cliffordHszTable : List (List (Fin 24)) := [
  [0],
  [6, 3, 6],
  [6, 3, 6, 3],
  [3],
  [4],
  [4, 3],
  [6],
  [6, 4, 6],
  [6, 3],
  [6, 3, 6, 4],
  [4, 6, 3, 6],
  [3, 6, 3],
  [3, 6],
  [6, 4, 6, 3],
  [4, 6, 3, 4],
  [4, 6, 4],
  [6, 4, 3],
  [3, 6, 4],
  [3, 6, 3, 4],
  [6, 4],
  [4, 6],
  [4, 3, 6],
  [4, 3, 6, 3],
  [4, 6, 3]]

/-- `_db.py:204-229` `CLIFFORD_TO_QASM3`. -/
def cliffordQasm3Table : List (List String) := [
  ["id"],
  ["x"],
  ["y"],
  ["z"],
  ["s"],
  ["sdg"],
  ["h"],
  ["sdg", "h", "sdg"],
  ["h", "x"],
  ["sdg", "y"],
  ["sdg", "x"],
  ["h", "y"],
  ["h", "z"],
  ["sdg", "h", "sdg", "y"],
  ["sdg", "h", "s"],
  ["sdg", "h", "sdg", "x"],
  ["sdg", "h"],
  ["sdg", "h", "y"],
  ["sdg", "h", "z"],
  ["sdg", "h", "x"],
  ["h", "s"],
  ["h", "sdg"],
  ["h", "x", "sdg"],
  ["h", "x", "s"]]

/-- `_db.py:231-256` `CLIFFORD_PAULI_DECOMPOSITION`: sequences of (axis, sign) Pauli measurements. -/
def cliffordPauliDecomposition : List (List (Axis × Sign)) := [
  [],
  [(.X, .plus), (.X, .minus)],
  [(.X, .minus), (.X, .minus)],
  [(.X, .minus), (.X, .plus)],
  [(.Y, .minus), (.X, .plus)],
  [(.Y, .plus), (.X, .plus)],
  [(.X, .plus)],
  [(.X, .plus), (.Y, .minus)],
  [(.X, .minus)],
  [(.Y, .minus), (.X, .minus)],
  [(.Y, .plus), (.X, .minus)],
  [(.X, .plus), (.X, .minus), (.X, .minus)],
  [(.X, .plus), (.X, .minus), (.X, .plus)],
  [(.X, .minus), (.Y, .minus)],
  [(.X, .minus), (.Y, .plus)],
  [(.X, .plus), (.Y, .plus)],
  [(.Y, .plus)],
  [(.X, .plus), (.X, .minus), (.Y, .plus)],
  [(.X, .plus), (.X, .minus), (.Y, .minus)],
  [(.Y, .minus)],
  [(.Y, .plus), (.Y, .plus)],
  [(.Y, .minus), (.Y, .minus)],
  [(.Y, .plus), (.Y, .minus)],
  [(.Y, .minus), (.Y, .plus)]]

/-- Table lookup `TABLE[self.value]`; every table has 24 rows (`clifford_tables_length`), so the
default is never used. -/
def lookup {α : Type} (t : List α) (c : Fin 24) (dflt : α) : α := t.getD c.val dflt

theorem clifford_tables_length :
    cliffordTable.length = 24 ∧ cliffordMulTable.length = 24 ∧
    (∀ r ∈ cliffordMulTable, r.length = 24) ∧ cliffordConjTable.length = 24 ∧
    cliffordMeasureTable.length = 24 ∧ cliffordHszTable.length = 24 ∧
    cliffordQasm3Table.length = 24 ∧ cliffordPauliDecomposition.length = 24 := by
  decide

/-- The complex number of a Gaussian integer. -/
noncomputable def GI.toC (z : GI) : ℂ := (z.re : ℂ) + (z.im : ℂ) * Complex.I

/-- Value of a transcribed matrix. -/
noncomputable def CMat.toMat (m : CMat) : Mat2 :=
  (1 / (Real.sqrt 2 : ℂ)) ^ m.k • mat2 m.a.toC m.b.toC m.c.toC m.d.toC

namespace Clifford

/-- `Clifford(value)`, `clifford.py:53-76`. -/
def ofFin (n : Fin 24) : Clifford := n

/-- `clifford.py:199-205`: the named gates. -/
def I : Clifford := ofFin 0
def X : Clifford := ofFin 1
def Y : Clifford := ofFin 2
def Z : Clifford := ofFin 3
def S : Clifford := ofFin 4
def SDG : Clifford := ofFin 5
def H : Clifford := ofFin 6

/-- Row of `CLIFFORD` for this gate. -/
def cmat (c : Clifford) : CMat := lookup cliffordTable c ⟨0, ⟨0, 0⟩, ⟨0, 0⟩, ⟨0, 0⟩, ⟨0, 0⟩⟩

/-- `clifford.py:79-82` `Clifford.matrix`. -/
noncomputable def matrix (c : Clifford) : Mat2 := c.cmat.toMat

/-- `clifford.py:118-121` `Clifford.conj`. -/
def conj (c : Clifford) : Clifford := ofFin (lookup cliffordConjTable c 0)

/-- `clifford.py:123-126` `Clifford.hsz`. -/
def hsz (c : Clifford) : List Clifford := (lookup cliffordHszTable c []).map ofFin

/-- `clifford.py:128-131` `Clifford.qasm3`. -/
def qasm3 (c : Clifford) : List String := lookup cliffordQasm3Table c []

/-- `clifford.py:133-137` `Clifford.__matmul__`. -/
def mul (c d : Clifford) : Clifford := ofFin (lookup (lookup cliffordMulTable c []) d 0)

/-- `clifford.py:139-151` `Clifford.measure_axis`. -/
def measureAxis (c : Clifford) (a : Axis) : Pauli :=
  let table := lookup cliffordMeasureTable c ((.X, .plus), (.Y, .plus), (.Z, .plus))
  let (symbol, sign) := match a with
    | .X => table.1
    | .Y => table.2.1
    | .Z => table.2.2
  ⟨.axis symbol, ComplexUnit.fromProperties (sign := sign)⟩

/-- `clifford.py:153-158` `Clifford.measure`. -/
def measure (c : Clifford) (p : Pauli) : Pauli :=
  match p.symbol with
  | .I => p
  | .axis a => (c.measureAxis a).mulUnit p.unit

end Clifford

/-- `clifford.py:34-39` `class Domains`: `X^s Z^t`.  Python `set[int]` is a finite set of nodes. -/
structure Domains where
  s : Finset ℕ
  t : Finset ℕ

namespace Clifford

/-- One iteration of the loop of `commute_domains` (`clifford.py:171-182`).  `none` models the
`RuntimeError` for a gate outside I, H, S, Z (unreachable, see `commuteDomains_isSome`). -/
def commuteStep (gate : Clifford) (d : Domains) : Option Domains :=
  if gate = I then some d
  else if gate = H then some ⟨d.t, d.s⟩
  else if gate = S then some ⟨d.s, symmDiff d.t d.s⟩
  else if gate = Z then some d
  else none

/-- `clifford.py:160-183` `Clifford.commute_domains`. -/
def commuteDomains? (c : Clifford) (d : Domains) : Option Domains :=
  c.hsz.foldlM (fun d gate => commuteStep gate d) d

end Clifford

end Graphix
