import Verif.Model.Flow

/-!
# Model of the views of flows and corrections in `graphix/flow/core.py`: `is_well_formed` and `to_dag`
-/

namespace Graphix

/-- `try: self.check_well_formed() except FlowError: return False; return True`. -/
def catchFlowError (check : Except PyErr Unit) : Except PyErr Bool :=
  match check with
  | .ok () => .ok true
  | .error .flowError => .ok false
  | .error e => .error e

namespace Flow

/-- `flow/core.py:664-677` `PauliFlow.is_well_formed`. -/
def isWellFormedPauli (f : Flow) (ord : SetOrd) : Except PyErr Bool := catchFlowError (f.checkPauli ord)

/-- `flow/core.py:664-677` `is_well_formed` of a `GFlow`, with its `check_well_formed` (1071-1160). -/
def isWellFormedG (f : Flow) (ord : SetOrd) : Except PyErr Bool := catchFlowError (f.checkG ord)

/-- `flow/core.py:664-677` `is_well_formed` of a `CausalFlow`, with its `check_well_formed` (1228-1308). -/
def isWellFormedC (f : Flow) (ord : SetOrd) : Except PyErr Bool := catchFlowError (f.checkC ord)

end Flow

namespace XZCorrections

/-- `flow/core.py:1332-1337`: the relations of `_corrections_to_dag`, from the items of the two dictionaries; `enum` is the order in which Python
enumerates a set. -/
def relations (enum : Finset ℕ → List ℕ) (xz : XZCorrections) : List (ℕ × ℕ) :=
  [xz.x, xz.z].flatMap fun corrections => corrections.flatMap fun kv => (enum kv.2).map fun c => (kv.1, c)

/-- networkx `DiGraph(relations)`: the nodes are those of the relations. -/
structure DiGraph where
  nodes : Finset ℕ
  edges : Finset (ℕ × ℕ)

/-- `flow/core.py:354-367` `XZCorrections.to_dag`, `flow/core.py:1311-1339` `_corrections_to_dag`. -/
def toDag (enum : Finset ℕ → List ℕ) (xz : XZCorrections) : DiGraph :=
  let r := xz.relations enum
  ⟨(r.flatMap fun e => [e.1, e.2]).toFinset, r.toFinset⟩

end XZCorrections
end Graphix
