import Verif.Spec.Flow

/-!
# Specification: merging two open graphs

What the documentation of `OpenGraph.compose` says of the result, when the nodes of the second open graph are renamed by `f`.
-/

namespace Graphix

/-- The Clifford (if any) is applied before the measurement. -/
noncomputable def Measurement.after (m : Measurement) : Option Clifford → Measurement
  | none => m
  | some c => m.clifford c

/-- `w` is a node of both open graphs: of the first one, and the new name of a node of the second one. -/
def Merged (a b : OpenGraph) (f : ℕ → ℕ) (w : ℕ) : Prop := w ∈ a.nodes ∧ ∃ v ∈ b.nodes, f v = w

instance (a b : OpenGraph) (f : ℕ → ℕ) : DecidablePred (Merged a b f) := fun w => by unfold Merged; infer_instance

/-- `og` is `a` merged with `b` renamed by `f`. -/
structure IsMerge (a b : OpenGraph) (f : ℕ → ℕ) (og : OpenGraph) : Prop where
  nodes : ∀ w, w ∈ og.nodes ↔ w ∈ a.nodes ∨ ∃ v ∈ b.nodes, f v = w
  edges : ∀ x y, og.Adj x y ↔ a.Adj x y ∨ ∃ v w, b.Adj v w ∧ f v = x ∧ f w = y
  /-- the input nodes: first those of `a` and then those of `b`, without the merged nodes that are inputs of only one of them -/
  inputs : og.inputs = (a.inputs.filter fun n => ¬ Merged a b f n ∨ n ∈ b.inputs.map f) ++
    (b.inputs.map f).filter fun n => ¬ Merged a b f n
  outputs : og.outputs = (a.outputs.filter fun n => ¬ Merged a b f n ∨ n ∈ b.outputs.map f) ++
    (b.outputs.map f).filter fun n => ¬ Merged a b f n
  /-- a measured node of `b` is measured, after the Clifford of the output node of `a` it is merged with -/
  meas_right : ∀ v m, b.measurements.get? v = some m → og.measurements.get? (f v) = some (m.after (a.cliffords.get? (f v)))
  /-- a measured node of `a` that is not merged is measured -/
  meas_left : ∀ u m, a.measurements.get? u = some m → ¬ Merged a b f u → og.measurements.get? u = some m
  /-- a measured node of `a` that is merged with an output node of `b` is measured, after the Clifford of this output node -/
  meas_left_merged : ∀ v ∈ b.nodes, ∀ m, a.measurements.get? (f v) = some m → b.measurements.get? v = none →
    og.measurements.get? (f v) = some (m.after (b.cliffords.get? v))
  /-- the Clifford of an output node that is not the renaming of a node of `b` -/
  cliff_left : ∀ w ∈ og.outputs, (∀ v ∈ b.nodes, f v ≠ w) → og.cliffords.get? w = a.cliffords.get? w
  /-- the Clifford of `b` comes after the Clifford of `a` -/
  cliff_right : ∀ v ∈ b.nodes, f v ∈ og.outputs → og.cliffords.get? (f v) =
    match a.cliffords.get? (f v), b.cliffords.get? v with
    | some c, some d => some (d.mul c)
    | some c, none => some c
    | none, some d => some d
    | none, none => none

end Graphix
