import Verif.Model.Flow
import Mathlib.Algebra.Group.Nat.Even

/-!
# Specification: causal flow, gflow and Pauli flow

Textbook definitions (Danos–Kashefi; Browne, Kashefi, Mhalla, Perdrix), stated on the graph, the measurement labels,
the correction function and the partial order given by the layers. They use nothing of the checking code.
-/

namespace Graphix

/-- The nodes are joined by an edge. -/
def OpenGraph.Adj (og : OpenGraph) (u v : ℕ) : Prop := (u, v) ∈ og.edges ∨ (v, u) ∈ og.edges

instance (og : OpenGraph) (u : ℕ) : DecidablePred (og.Adj u) := fun v => by unfold OpenGraph.Adj; infer_instance

/-- `v` is in the odd neighbourhood of `s`: it is adjacent to an odd number of nodes of `s`. -/
def OpenGraph.InOdd (og : OpenGraph) (s : Finset ℕ) (v : ℕ) : Prop := Odd (s.filter (og.Adj v)).card

/-- `v` is a node that is measured with the given label. -/
def OpenGraph.HasLabel (og : OpenGraph) (v : ℕ) (l : Label) : Prop :=
  ∃ m, og.measurements.get? v = some m ∧ m.toPlaneOrAxis = l

/-- `u ≺ v`: the layer of `v` comes before the layer of `u` in the list (the first layer is the last one in time). -/
def Before (layers : List (Finset ℕ)) (u v : ℕ) : Prop :=
  ∃ (i j : ℕ) (K L : Finset ℕ), layers[i]? = some K ∧ layers[j]? = some L ∧ j < i ∧ u ∈ K ∧ v ∈ L

/-- The layers are a partition of the nodes in non-empty sets, and the output nodes are the first layer. -/
structure LayersOk (og : OpenGraph) (layers : List (Finset ℕ)) : Prop where
  outputs : og.outputs ≠ [] → layers.head? = some og.outputs.toFinset
  nonempty : ∀ L ∈ layers, L.Nonempty
  disjoint : layers.Pairwise Disjoint
  cover : ∀ v, v ∈ og.nodes ↔ ∃ L ∈ layers, v ∈ L

/-- What the three kinds of flow have in common: the correction function maps every non-output node to a set of
non-input nodes, and the layers are those of a partial order. -/
structure FlowBase (f : Flow) : Prop where
  domain : ∀ u, (∃ s, f.corr.get? u = some s) ↔ u ∈ f.og.nodes ∧ u ∉ f.og.outputs
  image : ∀ u s v, f.corr.get? u = some s → v ∈ s → v ∈ f.og.nodes ∧ v ∉ f.og.inputs
  layers : LayersOk f.og f.layers

/-- Causal flow: all the measurements are in the XY plane, `p(u)` is a single node `w`, `u ~ w`, `u ≺ w` and `u ≺ v` for
the other neighbours `v` of `w`. -/
structure IsCausalFlow (f : Flow) : Prop extends FlowBase f where
  xy : ∀ u, u ∈ f.og.nodes → u ∉ f.og.outputs → f.og.HasLabel u (.plane .XY)
  single : ∀ u s, f.corr.get? u = some s → ∃ w, s = {w} ∧ f.og.Adj u w ∧ Before f.layers u w ∧
    ∀ v, f.og.Adj v w → v ≠ u → v ∈ f.og.nodes → Before f.layers u v

/-- Textbook definition: there are a map `g` from the non-output nodes to the non-input nodes and a strict order `≺` such
that `u ~ g(u)`, `u ≺ g(u)` and `u ≺ v` for the other neighbours `v` of `g(u)`. -/
def HasCausalFlow (og : OpenGraph) : Prop :=
  ∃ (g : ℕ → ℕ) (lt : ℕ → ℕ → Prop), (∀ a, ¬ lt a a) ∧ (∀ a b c, lt a b → lt b c → lt a c) ∧
    ∀ u, u ∈ og.nodes → u ∉ og.outputs → g u ∈ og.nodes ∧ g u ∉ og.inputs ∧ og.Adj u (g u) ∧ lt u (g u) ∧
      ∀ v, og.Adj v (g u) → v ≠ u → lt u v

/-- Generalised flow (G1-G5). -/
structure IsGFlow (f : Flow) : Prop extends FlowBase f where
  planes : ∀ u, u ∈ f.og.nodes → u ∉ f.og.outputs → ∃ p, f.og.HasLabel u (.plane p)
  g1 : ∀ u s, f.corr.get? u = some s → ∀ v ∈ s, v ≠ u → Before f.layers u v
  g2 : ∀ u s, f.corr.get? u = some s → ∀ v ∈ f.og.nodes, f.og.InOdd s v → v ≠ u → Before f.layers u v
  g3 : ∀ u s, f.corr.get? u = some s → f.og.HasLabel u (.plane .XY) → u ∉ s ∧ f.og.InOdd s u
  g4 : ∀ u s, f.corr.get? u = some s → f.og.HasLabel u (.plane .XZ) → u ∈ s ∧ f.og.InOdd s u
  g5 : ∀ u s, f.corr.get? u = some s → f.og.HasLabel u (.plane .YZ) → u ∈ s ∧ ¬ f.og.InOdd s u

/-- Pauli flow (P1-P9). -/
structure IsPauliFlow (f : Flow) : Prop extends FlowBase f where
  p1 : ∀ u s, f.corr.get? u = some s → ∀ v ∈ s, v ≠ u →
    ¬ f.og.HasLabel v (.axis .X) → ¬ f.og.HasLabel v (.axis .Y) → Before f.layers u v
  p2 : ∀ u s, f.corr.get? u = some s → ∀ v ∈ f.og.nodes, f.og.InOdd s v → v ≠ u →
    ¬ f.og.HasLabel v (.axis .Y) → ¬ f.og.HasLabel v (.axis .Z) → Before f.layers u v
  p3 : ∀ u s, f.corr.get? u = some s → ∀ v, v ≠ u → f.og.HasLabel v (.axis .Y) → ¬ Before f.layers u v →
    (v ∈ s ↔ f.og.InOdd s v)
  p4 : ∀ u s, f.corr.get? u = some s → f.og.HasLabel u (.plane .XY) → u ∉ s ∧ f.og.InOdd s u
  p5 : ∀ u s, f.corr.get? u = some s → f.og.HasLabel u (.plane .XZ) → u ∈ s ∧ f.og.InOdd s u
  p6 : ∀ u s, f.corr.get? u = some s → f.og.HasLabel u (.plane .YZ) → u ∈ s ∧ ¬ f.og.InOdd s u
  p7 : ∀ u s, f.corr.get? u = some s → f.og.HasLabel u (.axis .X) → f.og.InOdd s u
  p8 : ∀ u s, f.corr.get? u = some s → f.og.HasLabel u (.axis .Z) → u ∈ s
  p9 : ∀ u s, f.corr.get? u = some s → f.og.HasLabel u (.axis .Y) → (u ∈ s ↔ ¬ f.og.InOdd s u)

/-- Textbook definition of generalised flow: a map `g` from the non-output nodes to sets of non-input nodes and a strict order
`≺` with G1-G5. -/
structure IsGFlowOf (og : OpenGraph) (g : ℕ → Finset ℕ) (lt : ℕ → ℕ → Prop) : Prop where
  irrefl : ∀ a, ¬ lt a a
  trans : ∀ a b c, lt a b → lt b c → lt a c
  image : ∀ u ∈ og.nodes, u ∉ og.outputs → ∀ v ∈ g u, v ∈ og.nodes ∧ v ∉ og.inputs
  g1 : ∀ u ∈ og.nodes, u ∉ og.outputs → ∀ v ∈ g u, v ≠ u → lt u v
  g2 : ∀ u ∈ og.nodes, u ∉ og.outputs → ∀ v ∈ og.nodes, og.InOdd (g u) v → v ≠ u → lt u v
  g3 : ∀ u ∈ og.nodes, u ∉ og.outputs → og.HasLabel u (.plane .XY) → u ∉ g u ∧ og.InOdd (g u) u
  g4 : ∀ u ∈ og.nodes, u ∉ og.outputs → og.HasLabel u (.plane .XZ) → u ∈ g u ∧ og.InOdd (g u) u
  g5 : ∀ u ∈ og.nodes, u ∉ og.outputs → og.HasLabel u (.plane .YZ) → u ∈ g u ∧ ¬ og.InOdd (g u) u

/-- The open graph has a gflow. -/
def HasGFlow (og : OpenGraph) : Prop := ∃ g lt, IsGFlowOf og g lt

/-- Textbook definition of Pauli flow: a map `p` from the non-output nodes to sets of non-input nodes and a strict order `≺`
with P1-P9. -/
structure IsPauliFlowOf (og : OpenGraph) (p : ℕ → Finset ℕ) (lt : ℕ → ℕ → Prop) : Prop where
  irrefl : ∀ a, ¬ lt a a
  trans : ∀ a b c, lt a b → lt b c → lt a c
  image : ∀ u ∈ og.nodes, u ∉ og.outputs → ∀ v ∈ p u, v ∈ og.nodes ∧ v ∉ og.inputs
  p1 : ∀ u ∈ og.nodes, u ∉ og.outputs → ∀ v ∈ p u, v ≠ u → ¬ og.HasLabel v (.axis .X) → ¬ og.HasLabel v (.axis .Y) → lt u v
  p2 : ∀ u ∈ og.nodes, u ∉ og.outputs → ∀ v ∈ og.nodes, og.InOdd (p u) v → v ≠ u →
    ¬ og.HasLabel v (.axis .Y) → ¬ og.HasLabel v (.axis .Z) → lt u v
  p3 : ∀ u ∈ og.nodes, u ∉ og.outputs → ∀ v, v ≠ u → og.HasLabel v (.axis .Y) → ¬ lt u v → (v ∈ p u ↔ og.InOdd (p u) v)
  p4 : ∀ u ∈ og.nodes, u ∉ og.outputs → og.HasLabel u (.plane .XY) → u ∉ p u ∧ og.InOdd (p u) u
  p5 : ∀ u ∈ og.nodes, u ∉ og.outputs → og.HasLabel u (.plane .XZ) → u ∈ p u ∧ og.InOdd (p u) u
  p6 : ∀ u ∈ og.nodes, u ∉ og.outputs → og.HasLabel u (.plane .YZ) → u ∈ p u ∧ ¬ og.InOdd (p u) u
  p7 : ∀ u ∈ og.nodes, u ∉ og.outputs → og.HasLabel u (.axis .X) → og.InOdd (p u) u
  p8 : ∀ u ∈ og.nodes, u ∉ og.outputs → og.HasLabel u (.axis .Z) → u ∈ p u
  p9 : ∀ u ∈ og.nodes, u ∉ og.outputs → og.HasLabel u (.axis .Y) → (u ∈ p u ↔ ¬ og.InOdd (p u) u)

/-- The open graph has a Pauli flow. -/
def HasPauliFlow (og : OpenGraph) : Prop := ∃ p lt, IsPauliFlowOf og p lt

/-- What `XZCorrections.check_well_formed` is documented to verify: corrections are triggered by measured nodes, the
layers are those of a partial order, and a node is only corrected by nodes that precede it. -/
structure CorrectionsOk (xz : XZCorrections) : Prop where
  domain : ∀ u, (∃ s, xz.x.get? u = some s) ∨ (∃ s, xz.z.get? u = some s) → u ∈ xz.og.nodes ∧ u ∉ xz.og.outputs
  layers : LayersOk xz.og xz.layers
  x_later : ∀ u s v, xz.x.get? u = some s → v ∈ s → v ∈ xz.og.nodes → Before xz.layers u v
  z_later : ∀ u s v, xz.z.get? u = some s → v ∈ s → v ∈ xz.og.nodes → Before xz.layers u v

/-- What networkx and `OpenGraph.__post_init__` guarantee of an open graph that exists: edges join two nodes of the
graph and are listed once; a dictionary has each key once. -/
structure OpenGraph.Valid (og : OpenGraph) : Prop where
  post : og.postInit = .ok ()
  edge_mem : ∀ u v, (u, v) ∈ og.edges → u ∈ og.nodes ∧ v ∈ og.nodes
  edge_once : og.edges.Pairwise fun e e' => e ≠ e' ∧ e ≠ (e'.2, e'.1)
  meas_keys : og.measurements.keys.Nodup
  clif_keys : og.cliffords.keys.Nodup

/-- An iteration order of sets lists each element once. -/
def SetOrd.Valid (ord : SetOrd) : Prop := ∀ a b s, (ord a b s).Nodup ∧ ∀ x, x ∈ ord a b s ↔ x ∈ s

end Graphix
