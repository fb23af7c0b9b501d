import Verif.Model.Linalg
import Mathlib.Data.Matrix.Basic
import Mathlib.LinearAlgebra.Matrix.ToLin

/-! # Linear algebra over GF(2): specification in terms of Mathlib's matrices -/

namespace Graphix
namespace GF2

/-- The `m × n` matrix with the given contents. -/
def toMat (m n : ℕ) (a : GF2) : Matrix (Fin m) (Fin n) (ZMod 2) := Matrix.of fun i j => a i j

/-- The row space. -/
def rowSpace (m n : ℕ) (a : GF2) : Submodule (ZMod 2) (Fin n → ZMod 2) :=
  Submodule.span (ZMod 2) (Set.range fun i : Fin m => fun j : Fin n => a i j)

/-- Row-echelon form of the first `N` columns of a matrix of `m` rows: the first `p` rows have their leading
1 in the increasing columns `piv 0 < piv 1 < …`, the other rows are zero; when `full`, the columns of the
leading ones are zero elsewhere (reduced row-echelon form). -/
structure Echelon (full : Bool) (m N : ℕ) (a : GF2) (p : ℕ) (piv : ℕ → ℕ) : Prop where
  le : p ≤ m
  lt : ∀ r, r < p → piv r < N
  one : ∀ r, r < p → a r (piv r) = 1
  lead : ∀ r, r < p → ∀ l, l < piv r → a r l = 0
  mono : ∀ r s, r < s → s < p → piv r < piv s
  zero : ∀ r, p ≤ r → r < m → ∀ l, l < N → a r l = 0
  reduced : full = true → ∀ r s, r < m → s < p → r ≠ s → a r (piv s) = 0

end GF2
end Graphix
