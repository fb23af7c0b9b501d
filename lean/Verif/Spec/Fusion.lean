import Verif.Model.Fusion

/-!
# Specification: simple graphs, stars and paths
-/

namespace Graphix

/-- A networkx graph without self-loops: neighbourhoods are sets of nodes and are symmetric. -/
structure NxGraph.Simple (g : NxGraph) : Prop where
  nodes : g.nodes.Nodup
  adj : ∀ v, (g.adj v).Nodup
  irrefl : ∀ v, v ∉ g.adj v
  symm : ∀ u v, u ∈ g.adj v → v ∈ g.adj u
  mem : ∀ u v, u ∈ g.adj v → u ∈ g.nodes

/-- The set of the edges. -/
def NxGraph.edges (g : NxGraph) : Finset (Sym2 ℕ) :=
  g.nodes.toFinset.biUnion fun u => (g.adj u).toFinset.image fun v => s(u, v)

/-- The resource graph is a star: a root and edges to all the other nodes. -/
def ResourceGraph.IsStar (r : ResourceGraph) : Prop :=
  r.nodes.Nodup ∧ ∃ c ∈ r.nodes, ∀ e, e ∈ r.edges ↔ ∃ x ∈ r.nodes, x ≠ c ∧ e = s(c, x)

/-- The resource graph is a line: distinct nodes, and edges between the consecutive ones. -/
def ResourceGraph.IsPath (r : ResourceGraph) : Prop :=
  r.nodes.Nodup ∧ ∀ e, e ∈ r.edges ↔ ∃ i a b, r.nodes[i]? = some a ∧ r.nodes[i + 1]? = some b ∧ e = s(a, b)

end Graphix
