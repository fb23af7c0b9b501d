import Verif.Model.StdOpenGraph
import Verif.Model.ToPauliFlow
import Verif.Model.ToPattern

/-!
# Model of the flows of a pattern (`graphix/pattern.py`): `to_xzcorrections`, `to_causalflow`, `to_gflow`, `to_pauliflow`

`enum` is the order in which Python enumerates the set of edges of the standardized pattern, `ord` the order in which it
enumerates the other sets.
-/

namespace Graphix

/-- `flow/core.py:332-339` `XZCorrections.downcast_bloch`. -/
def XZCorrections.downcastBloch (xz : XZCorrections) : Except PyErr XZCorrections := do
  let og ← xz.og.downcastBloch
  return ⟨og, xz.x, xz.z, xz.layers⟩

namespace Pattern

/-- `pattern.py:1130-1151` `to_xzcorrections`. -/
noncomputable def toXZCorrections (p : Pattern) (enum : Finset (Sym2 ℕ) → List (ℕ × ℕ)) (ord : SetOrd) : Except PyErr XZCorrections := do
  let sp ← StdPattern.fromPattern p
  sp.toXZCorrections (enum sp.eSet) ord

/-- `pattern.py:1050-1075` `to_causalflow`. -/
noncomputable def toCausalFlow (p : Pattern) (enum : Finset (Sym2 ℕ) → List (ℕ × ℕ)) (ord : SetOrd) : Except PyErr Flow := do
  let xz ← p.toXZCorrections enum ord
  let xz ← xz.downcastBloch
  xz.toCausalFlow ord

/-- `pattern.py:1077-1099` `to_gflow`. -/
noncomputable def toGFlow (p : Pattern) (enum : Finset (Sym2 ℕ) → List (ℕ × ℕ)) (ord : SetOrd) : Except PyErr Flow := do
  let xz ← p.toXZCorrections enum ord
  let xz ← xz.downcastBloch
  xz.toGFlow ord

/-- `pattern.py:1101-1128` `to_pauliflow`. -/
noncomputable def toPauliFlow (p : Pattern) (enum : Finset (Sym2 ℕ) → List (ℕ × ℕ)) (ord : SetOrd) : Except PyErr Flow := do
  let xz ← p.toXZCorrections enum ord
  xz.toPauliFlow ord

end Pattern
end Graphix
