import Verif.Model.CircSim
import Verif.PyDict
import Mathlib.Data.Nat.Digits.Defs

/-!
# Model of the dictionaries of a state vector (`graphix/sim/statevec.py`): `to_dict`, `to_prob_dict`, `isclose`

Amplitudes are complex numbers (symbolic amplitudes are not modelled); strings are lists of characters.
-/

namespace Graphix

/-- `statevec.py:49` `_ENCODING`. -/
inductive Encoding
  | MSB | LSB
deriving DecidableEq

/-- Python's `f"{i:b}"`: the binary digits, most significant first, without leading zeros (`"0"` for 0). -/
def pyBin (i : ℕ) : List Char :=
  if i = 0 then ['0'] else (Nat.digits 2 i).reverse.map fun d => if d = 1 then '1' else '0'

/-- Python's format width `0w`: zeros are added on the left up to the width. -/
def zeroPad (w : ℕ) (s : List Char) : List Char := List.replicate (w - s.length) '0' ++ s

/-- `statevec.py:753-763` `_format_encoding`. -/
def formatEncoding (nqubit i : ℕ) (e : Encoding) : List Char :=
  let output := zeroPad nqubit (pyBin i)
  if e = .LSB then output.reverse else output

namespace Statevector

open Classical in
/-- `statevec.py:738-750` `_to_dict_map`. `np.isclose(|a|, 0, rtol, atol)` is `|a| ≤ atol + rtol * 0`. -/
noncomputable def toDictMap {α : Type} (sv : Statevector) (f : ℂ → α) (e : Encoding) (rtol atol : ℝ) : PyDict (List Char) α :=
  ((List.range (2 ^ sv.nqubit)).filter fun i => ¬ (‖sv.psi i‖ ≤ atol + rtol * 0)).foldl
    (fun d i => d.set (formatEncoding sv.nqubit i e) (f (sv.psi i))) []

/-- `statevec.py:591-644` `to_dict`. -/
noncomputable def toDict (sv : Statevector) (e : Encoding) (rtol atol : ℝ) : PyDict (List Char) ℂ := sv.toDictMap id e rtol atol

/-- `statevec.py:646-678` `to_prob_dict`. -/
noncomputable def toProbDict (sv : Statevector) (e : Encoding) (rtol atol : ℝ) : PyDict (List Char) ℝ :=
  sv.toDictMap (fun x => ‖x‖ ^ 2) e rtol atol

open Classical in
/-- `statevec.py:570-589` `isclose`: `math.isclose(f, 1, rel_tol, abs_tol)` is `|f - 1| ≤ max(rel_tol * max(|f|, 1), abs_tol)`. -/
noncomputable def isclose (sv other : Statevector) (rtol atol : ℝ) : Except PyErr Bool := do
  let f ← sv.fidelity other
  return decide (|f - 1| ≤ max (rtol * max |f| 1) atol)

end Statevector

end Graphix
