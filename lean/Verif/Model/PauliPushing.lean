import Verif.Model.Standardize
import Verif.Model.SpaceMin

/-!
# Model of `PauliPushingCut` (`graphix/remove_pauli_measurements.py`) and `perform_pauli_pushing`
-/

namespace Graphix

open scoped symmDiff

/-- `remove_pauli_measurements.py:52-73` `PauliPushingCut` (without the original pattern). -/
structure PauliCut where
  pauli : List MCmd
  nonPauli : List MCmd
  shifted : SignalDict

namespace PauliCut

/-- `remove_pauli_measurements.py:115-118`. -/
def init : PauliCut := ⟨[], [], []⟩

/-- The body of the loop of `from_standardizedpattern` (`remove_pauli_measurements.py:119-159`).
`_expand_domain` (`176-189`) is the same function as `expand_domain` of `pattern.py:687-697`.
`leave_nodes=None` is the empty set. -/
def step (leave : Finset ℕ) (c : PauliCut) (cmd : MCmd) : PauliCut :=
  let s := expandDomain c.shifted cmd.sDomain
  let t := expandDomain c.shifted cmd.tDomain
  match cmd.measurement with
  | .bloch m => { c with nonPauli := c.nonPauli ++ [⟨cmd.node, .bloch m, s, t⟩] }
  | .pauli m =>
    if cmd.node ∈ leave then { c with nonPauli := c.nonPauli ++ [⟨cmd.node, .pauli m, s, t⟩] }
    else
      { c with
        shifted := match m.axis with
          | .X => PyDict.set c.shifted cmd.node t
          | .Y => PyDict.set c.shifted cmd.node (s ∆ t)
          | .Z => PyDict.set c.shifted cmd.node s
        pauli := c.pauli ++ [⟨cmd.node, .pauli m, ∅, ∅⟩] }

/-- `remove_pauli_measurements.py:75-160` `PauliPushingCut.from_standardizedpattern` (warnings
omitted). -/
def ofStd (leave : Finset ℕ) (sp : StdPattern) : PauliCut := sp.mList.foldl (step leave) init

/-- `remove_pauli_measurements.py:192-195` `_expand_corrections`. -/
def expandCorrections (shifted : SignalDict) (d : PyDict ℕ (Finset ℕ)) : PyDict ℕ (Finset ℕ) :=
  d.map (fun kv => (kv.1, expandDomain shifted kv.2))

/-- `remove_pauli_measurements.py:162-173` `to_standardizedpattern`. -/
def toStd (c : PauliCut) (sp : StdPattern) : StdPattern :=
  { sp with
    mList := c.pauli ++ c.nonPauli
    zDict := expandCorrections c.shifted sp.zDict
    xDict := expandCorrections c.shifted sp.xDict }

end PauliCut

/-- `optimization.py:239-267` `StandardizedPattern.perform_pauli_pushing`. -/
def StdPattern.performPauliPushing (leave : Finset ℕ) (sp : StdPattern) : StdPattern :=
  (PauliCut.ofStd leave sp).toStd sp

/-- `pattern.py:1837-1886` `Pattern.perform_pauli_pushing(copy=True, standardize=True)` for the
enumeration `edges` of the edge set. -/
noncomputable def Pattern.performPauliPushingStd (p : Pattern) (leave : Finset ℕ) (edges : List (ℕ × ℕ)) :
    Except PyErr Pattern := do
  let sp ← StdPattern.fromPattern p
  (sp.performPauliPushing leave).toPattern edges

/-- `pattern.py:1837-1886` `Pattern.perform_pauli_pushing(copy=True)` (the default
`standardize=False`), where `nbr` enumerates the neighbourhoods. -/
noncomputable def Pattern.performPauliPushing (p : Pattern) (leave : Finset ℕ) (nbr : ℕ → List ℕ) :
    Except PyErr Pattern := do
  let sp ← StdPattern.fromPattern p
  (sp.performPauliPushing leave).toSpaceOptimalPattern nbr

/-- `pattern.py:1882-1886` `perform_pauli_pushing` in place: only the commands are replaced. -/
noncomputable def Pattern.performPauliPushingInPlace (p : Pattern) (leave : Finset ℕ) (nbr : ℕ → List ℕ) :
    Except PyErr Pattern := do
  let q ← p.performPauliPushing leave nbr
  return { p with seq := q.seq }

end Graphix
