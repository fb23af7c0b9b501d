import Verif.Spec.Flow

/-!
# Specification: focused Pauli flows
-/

namespace Graphix

/-- The flow is focused (Simmons, Definition 4.3): the correction of a node `u`, up to the correction itself, does not disturb
the other measurements when they are made at angle 0. -/
def Flow.Focused (f : Flow) : Prop :=
  ∀ u s, f.corr.get? u = some s → ∀ v l, v ≠ u → f.og.HasLabel v l →
    (v ∈ s → l = .plane .XY ∨ l = .axis .X ∨ l = .axis .Y) ∧
    (f.og.InOdd s v → l = .plane .XZ ∨ l = .plane .YZ ∨ l = .axis .Y ∨ l = .axis .Z) ∧
    (l = .axis .Y → (v ∈ s ↔ f.og.InOdd s v))

end Graphix
