import Verif.Model.Clifford
import Verif.Model.PatternMap

/-!
# Model of `Clifford.try_from_matrix` of `graphix/clifford.py`

Entries are exact complex numbers (numpy computes with floats); the tolerances of `np.allclose` and `math.isclose` are modelled.
-/

namespace Graphix

open scoped Classical

/-- `np.allclose(a, b)` with the default tolerances, on one entry. -/
noncomputable def entryClose (a b : ℂ) : Prop := ‖a - b‖ ≤ 1 / 10 ^ 8 + 1 / 10 ^ 5 * ‖b‖

/-- `np.allclose(a, b)` with the default tolerances, for matrices of the same shape. -/
noncomputable def matAllclose (a b : Mat2) : Prop := ∀ i j, entryClose (a i j) (b i j)

/-- The order of `mat.flat`. -/
def flatOrder : List (Bool × Bool) := [(false, false), (false, true), (true, false), (true, true)]

/-- `clifford.py:98-103`: the body of the loop on the pivots. -/
noncomputable def pivotMatches (mat mi : Mat2) (p : Bool × Bool) : Prop :=
  mathIsClose ‖mat p.1 p.2‖ 0 (1 / 10 ^ 9) 0 ≠ .ok true ∧ mathIsClose ‖mi p.1 p.2‖ 0 (1 / 10 ^ 9) 0 ≠ .ok true ∧
    matAllclose (fun i j => mat i j / mat p.1 p.2) (fun i j => mi i j / mi p.1 p.2)

/-- `clifford.py:84-105` `Clifford.try_from_matrix`. -/
noncomputable def tryFromMatrix {r c : ℕ} (mat : Matrix (Fin r) (Fin c) ℂ) : Option Clifford :=
  if h : r = 2 ∧ c = 2 then
    let m : Mat2 := fun i j => mat (Fin.cast h.1.symm (if i then 1 else 0)) (Fin.cast h.2.symm (if j then 1 else 0))
    ((List.finRange 24).map Clifford.ofFin).find? fun ci => flatOrder.any fun p => decide (pivotMatches m ci.matrix p)
  else none

end Graphix
