import Verif.Spec.Density

/-!
# Specification: inner product of states
-/

namespace Graphix

/-- The inner product `⟨φ|ψ⟩` of two states of the nodes `l`: the sum over the basis states, given by the set `S` of the nodes whose bit is 1. -/
noncomputable def stateInner (l : List ℕ) (φ ψ : QState) : ℂ :=
  ∑ S ∈ l.toFinset.powerset, star (φ fun n => decide (n ∈ S)) * ψ fun n => decide (n ∈ S)

end Graphix
