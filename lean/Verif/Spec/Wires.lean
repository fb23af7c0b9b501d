import Verif.Quantum.State

/-!
# Specification: the qubits of a circuit as the nodes of a pattern
-/

namespace Graphix

/-- The state `ψ` of the qubits `0, 1, …` as a state of the nodes of the list: the qubit `k` is the node `l[k]`. -/
noncomputable def onWires (l : List ℕ) (ψ : QState) : QState := fun b => ψ fun k => (l[k]?).elim false b

/-- `X` on the qubits `k` with `p k`. -/
def flipWires (p : ℕ → Bool) (ψ : QState) : QState := fun b => ψ fun k => Bool.xor (b k) (p k)

end Graphix
