import Verif.Quantum.State
import Verif.Model.Fundamentals

/-!
# Specification: graph states

The graph state of a graph: every node in `|+⟩`, then a controlled Z for each edge.
-/

namespace Graphix

/-- The single-qubit state `|+⟩`. -/
noncomputable def plusVec : Bool → ℂ := fun _ => 1 / Real.sqrt 2

/-- The edges of the graph on the nodes `l` with adjacency `adj`, each one once. -/
def edgesOf (adj : ℕ → ℕ → Bool) : List ℕ → List (ℕ × ℕ)
  | [] => []
  | u :: l => (l.filter (adj u)).map (fun v => (u, v)) ++ edgesOf adj l

/-- Entangle the nodes `l` along the edges of the graph, starting from the state `φ`. -/
noncomputable def entangleAll (adj : ℕ → ℕ → Bool) (l : List ℕ) (φ : QState) : QState :=
  (edgesOf adj l).foldl (fun ψ e => cz e.1 e.2 ψ) φ

/-- Prepare all the nodes of `l` in `|+⟩` (from nothing: the state of no qubits is the amplitude 1). -/
noncomputable def prepAll (l : List ℕ) : QState := l.foldr (fun n ψ => prep n plusVec ψ) (fun _ => 1)

/-- The graph state of the graph on the nodes `l` with adjacency `adj`. -/
noncomputable def graphKet (adj : ℕ → ℕ → Bool) (l : List ℕ) : QState := entangleAll adj l (prepAll l)

/-- Local complementation at `u`: complement the subgraph of the neighbours of `u`. -/
def locComp (adj : ℕ → ℕ → Bool) (u : ℕ) : ℕ → ℕ → Bool := fun x y =>
  if x ≠ y ∧ adj u x = true ∧ adj u y = true then !adj x y else adj x y

/-- A simple graph on the nodes `l`: edges are symmetric, without self-loops, between nodes of `l`. -/
structure SimpleOn (adj : ℕ → ℕ → Bool) (l : List ℕ) : Prop where
  nodup : l.Nodup
  symm : ∀ x y, adj x y = adj y x
  irrefl : ∀ x, adj x x = false
  mem : ∀ x y, adj x y = true → x ∈ l

end Graphix
