import Verif.Spec.Flow
import Verif.Spec.Semantics

/-!
# Specification: the map that an open graph stands for

Prepare `|+⟩` on the nodes that are not inputs, entangle along the edges, project every measured node on the vector of
outcome 0, apply the Cliffords to the outputs: the branch of the open graph in which no correction is needed.
-/

namespace Graphix

/-- The state is a state of the given nodes: it does not depend on the bits of other nodes. -/
def OnNodes (l : List ℕ) (ψ : QState) : Prop := ∀ b b' : Basis, (∀ n ∈ l, b n = b' n) → ψ b = ψ b'

/-- None of the given nodes exists in the state: it does not depend on their bits. It may have other nodes (for instance
the environment with which the inputs of a pattern are entangled). -/
def Absent (s : Finset ℕ) (ψ : QState) : Prop := ∀ b b' : Basis, (∀ n, n ∉ s → b n = b' n) → ψ b = ψ b'

theorem OnNodes.absent {l : List ℕ} {ψ : QState} (h : OnNodes l ψ) {s : Finset ℕ} (hs : ∀ n ∈ l, n ∉ s) : Absent s ψ :=
  fun b b' hb => h b b' fun n hn => hb n (hs n hn)

/-- The two maps are equal on the states that satisfy `P`, up to a global phase that does not depend on the state. -/
def OpPhaseEqOn (P : QState → Prop) (F G : QState → QState) : Prop := ∃ c : ℂ, ‖c‖ = 1 ∧ ∀ ψ, P ψ → F ψ = c • G ψ

theorem OpPhaseEqOn.trans {P : QState → Prop} {F G H : QState → QState} (h : OpPhaseEqOn P F G) (h' : OpPhaseEqOn P G H) :
    OpPhaseEqOn P F H := by
  obtain ⟨c, hc, h⟩ := h
  obtain ⟨d, hd, h'⟩ := h'
  exact ⟨c * d, by rw [norm_mul, hc, hd, one_mul], fun ψ hψ => by rw [h ψ hψ, h' ψ hψ, smul_smul]⟩

theorem OpPhaseEqOn.symm {P : QState → Prop} {F G : QState → QState} (h : OpPhaseEqOn P F G) : OpPhaseEqOn P G F := by
  obtain ⟨c, hc, h⟩ := h
  have hc0 : c ≠ 0 := by rintro rfl; simp at hc
  exact ⟨c⁻¹, by rw [norm_inv, hc, inv_one], fun ψ hψ => by rw [h ψ hψ, smul_smul, inv_mul_cancel₀ hc0, one_smul]⟩

theorem OpPhaseEq.on {F G : QState → QState} (h : OpPhaseEq F G) (P : QState → Prop) : OpPhaseEqOn P F G := by
  obtain ⟨c, hc, h⟩ := h
  exact ⟨c, hc, fun ψ _ => h ψ⟩

theorem OpPhaseEqOn.state {P : QState → Prop} {F G : QState → QState} (h : OpPhaseEqOn P F G) {ψ : QState} (hψ : P ψ) :
    PhaseEq (F ψ) (G ψ) := by
  obtain ⟨c, hc, h⟩ := h
  exact ⟨c, hc, h ψ hψ⟩

/-- The measurement of a node. -/
noncomputable def OpenGraph.measOf (og : OpenGraph) (u : ℕ) : Measurement :=
  (og.measurements.get? u).getD (.pauli ⟨.X, .plus⟩)

/-- The open graph as a list of commands, without corrections. -/
noncomputable def OpenGraph.bareCmds (og : OpenGraph) : List Command :=
  ((og.nodes \ og.inputs.toFinset).sort (· ≤ ·)).map (Command.N · PlanarState.plus) ++
    (og.edges.map (fun e => Command.E e.1 e.2) ++
      (((og.nodes \ og.outputs.toFinset).sort (· ≤ ·)).map (fun u => Command.M u (og.measOf u) ∅ ∅) ++
        og.cliffords.map (fun kv => Command.C kv.1 kv.2)))

/-- The map of the open graph. -/
noncomputable def OpenGraph.linMap (og : OpenGraph) (ψ : QState) : QState := semCmds (fun _ => false) og.bareCmds ψ

end Graphix
