import Verif.Model.Measurement
import Verif.PyDict

/-!
# Model of `graphix/command.py`

Nodes are `ℕ`; domains (`set[Node]`) are `Finset ℕ`, with `^` (xor of sets) the symmetric difference.
Commands are immutable values (the code mutates or replaces them; functions return new values).
-/

namespace Graphix

open scoped symmDiff

/-- `states.py:39-57` `class PlanarState` (the only `State` shipped by the library; preparations with
user-defined `State` subclasses are not modelled). -/
structure PlanarState where
  plane : Plane
  angle : ℝ

namespace PlanarState

/-- `states.py:88` `BasicStates.PLUS`. -/
noncomputable def plus : PlanarState := ⟨.XY, 0⟩

/-- `states.py:67-79` `PlanarState.to_statevector_numpy`. -/
noncomputable def vec (s : PlanarState) : Bool → ℂ := planarState s.plane s.angle

end PlanarState

/-- `command.py:74-301`: the commands N, M, E, C, X, Z, S, T. -/
inductive Command
  /-- `command.py:87-100` -/
  | N (node : ℕ) (state : PlanarState)
  /-- `command.py:122-141` -/
  | M (node : ℕ) (measurement : Measurement) (sDomain tDomain : Finset ℕ)
  /-- `command.py:184-195` -/
  | E (u v : ℕ)
  /-- `command.py:203-217` -/
  | C (node : ℕ) (clifford : Clifford)
  /-- `command.py:224-238` -/
  | X (node : ℕ) (domain : Finset ℕ)
  /-- `command.py:245-259` -/
  | Z (node : ℕ) (domain : Finset ℕ)
  /-- `command.py:266-280` -/
  | S (node : ℕ) (domain : Finset ℕ)
  /-- `command.py:287-297` -/
  | T

namespace Command

/-- `command.py:80-84, 180-181, 198-200, 220-221, 241-242, 262-263, 283-284, 300-301` `reindex`. -/
def reindex (f : ℕ → ℕ) : Command → Command
  | N n st => N (f n) st
  | M n m s t => M (f n) m (s.image f) (t.image f)
  | E u v => E (f u) (f v)
  | C n c => C (f n) c
  | X n d => X (f n) (d.image f)
  | Z n d => Z (f n) (d.image f)
  | S n d => S (f n) (d.image f)
  | T => T

/-- `cmd.kind == CommandKind.N`, and its node. -/
def prepared? : Command → Option ℕ
  | N n _ => some n
  | _ => none

/-- `cmd.kind == CommandKind.M`, and its node. -/
def measured? : Command → Option ℕ
  | M n _ _ _ => some n
  | _ => none

end Command

/-- `command.py:122-181` `class M` as a record (used where the code keeps lists of `M`). -/
structure MCmd where
  node : ℕ
  measurement : Measurement
  sDomain : Finset ℕ
  tDomain : Finset ℕ

namespace MCmd

/-- The command of a record. -/
def toCmd (m : MCmd) : Command := .M m.node m.measurement m.sDomain m.tDomain

/-- `command.py:143-162` `M.clifford`; `none` models the `RuntimeError` of `commute_domains`, which
never happens (`C04_commute_domains`). -/
noncomputable def clifford? (m : MCmd) (c : Clifford) : Option MCmd := do
  let d ← c.commuteDomains? ⟨m.sDomain, m.tDomain⟩
  return ⟨m.node, m.measurement.clifford c, d.s, d.t⟩

end MCmd

end Graphix
