import Mathlib.Logic.Relation
import Mathlib.Data.Finset.Card

/-!
# Specification: stratification of a directed graph
-/

namespace Graphix

/-- `layers` is the stratification of the nodes `V` by the relation `edge` into generations: the layers are
non-empty and partition `V`, every edge goes to a strictly later layer, and every node that is not in the first
layer has a predecessor in the layer just before its own (it is in the earliest possible layer). -/
structure IsGenerations (V : Finset ℕ) (edge : ℕ → ℕ → Prop) (layers : List (Finset ℕ)) : Prop where
  nonempty : ∀ L ∈ layers, L.Nonempty
  cover : ∀ n, n ∈ V ↔ ∃ L ∈ layers, n ∈ L
  disjoint : layers.Pairwise Disjoint
  edges : ∀ u v, u ∈ V → edge u v → ∀ (i j : ℕ) (Li Lj : Finset ℕ), layers[i]? = some Li → layers[j]? = some Lj → u ∈ Li → v ∈ Lj → i < j
  earliest : ∀ (j : ℕ) (L : Finset ℕ) (v : ℕ), layers[j + 1]? = some L → v ∈ L → ∃ L' u, layers[j]? = some L' ∧ u ∈ L' ∧ edge u v

/-- The relation has a cycle. -/
def HasCycle (edge : ℕ → ℕ → Prop) : Prop := ∃ n, Relation.TransGen edge n n

end Graphix
