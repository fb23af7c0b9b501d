import Verif.Model.Command
import Verif.Proofs.Measurement
import Verif.Spec.Parity

/-!
# Specification: what a command sequence does in a branch

Textbook measurement-calculus semantics.  A *branch* is an assignment `r : ℕ → Bool` of outcomes to
nodes.  In branch `r`, the command sequence maps an (unnormalised) state to the state obtained by
preparing, entangling, correcting and projecting on the outcomes given by `r`; its squared norm is
the probability of the branch.

* `N n |v⟩` tensors `|v⟩` at coordinate `n`;
* `E (u, v)` is the controlled Z;
* `M n m s t` is "apply `Z^t`, then `X^s`, then project qubit `n` on the eigenvector of `m` for
  outcome `r n`", where `s`, `t` are the parities of the outcomes in the domains;
* `X n s`, `Z n s` apply the Pauli iff the parity of the domain is odd; `C n c` applies the Clifford;
* `T` does nothing; `S` is not executable (the simulator rejects it) and is given no effect here:
  theorems about semantics state what they assume on `S`.
-/

namespace Graphix

/-- Meaning of one command in branch `r`. -/
noncomputable def Command.sem (r : ℕ → Bool) : Command → QState → QState
  | .N n st, ψ => prep n st.vec ψ
  | .M n m s t, ψ => projOut n (measVec m (r n))
      (op1 (powB Ops.X (parity r s)) n (op1 (powB Ops.Z (parity r t)) n ψ))
  | .E u v, ψ => cz u v ψ
  | .C n c, ψ => op1 c.matrix n ψ
  | .X n d, ψ => op1 (powB Ops.X (parity r d)) n ψ
  | .Z n d, ψ => op1 (powB Ops.Z (parity r d)) n ψ
  | .S _ _, ψ => ψ
  | .T, ψ => ψ

/-- Meaning of a command sequence in branch `r`. -/
noncomputable def semCmds (r : ℕ → Bool) (l : List Command) (ψ : QState) : QState :=
  l.foldl (fun ψ c => c.sem r ψ) ψ

/-- Two (unnormalised) linear maps on states are equal up to a global phase, the same for all
states. -/
def OpPhaseEq (F G : QState → QState) : Prop := ∃ c : ℂ, ‖c‖ = 1 ∧ ∀ ψ, F ψ = c • G ψ

@[simp] theorem semCmds_nil (r : ℕ → Bool) (ψ : QState) : semCmds r [] ψ = ψ := rfl

@[simp] theorem semCmds_cons (r : ℕ → Bool) (c : Command) (l : List Command) (ψ : QState) :
    semCmds r (c :: l) ψ = semCmds r l (c.sem r ψ) := rfl

theorem semCmds_append (r : ℕ → Bool) (l l' : List Command) (ψ : QState) :
    semCmds r (l ++ l') ψ = semCmds r l' (semCmds r l ψ) := by
  simp [semCmds, List.foldl_append]

theorem OpPhaseEq.refl (F : QState → QState) : OpPhaseEq F F := ⟨1, by simp, by simp⟩

theorem OpPhaseEq.of_eq {F G : QState → QState} (h : ∀ ψ, F ψ = G ψ) : OpPhaseEq F G :=
  ⟨1, by simp, by simpa using h⟩

theorem OpPhaseEq.symm {F G : QState → QState} (h : OpPhaseEq F G) : OpPhaseEq G F := by
  obtain ⟨c, hc, h⟩ := h
  have hc0 : c ≠ 0 := by rintro rfl; simp at hc
  refine ⟨c⁻¹, by simp [hc], fun ψ => ?_⟩
  rw [h, smul_smul, inv_mul_cancel₀ hc0, one_smul]

theorem OpPhaseEq.trans {F G H : QState → QState} (h : OpPhaseEq F G) (h' : OpPhaseEq G H) :
    OpPhaseEq F H := by
  obtain ⟨c, hc, h⟩ := h
  obtain ⟨d, hd, h'⟩ := h'
  refine ⟨c * d, by simp [hc, hd], fun ψ => ?_⟩
  rw [h, h', smul_smul]

/-- A map on states that commutes with scalars. -/
def Homog (F : QState → QState) : Prop := ∀ (c : ℂ) ψ, F (c • ψ) = c • F ψ

theorem OpPhaseEq.comp {F G F' G' : QState → QState} (hF : Homog F)
    (h : OpPhaseEq F F') (h' : OpPhaseEq G G') :
    OpPhaseEq (fun ψ => F (G ψ)) (fun ψ => F' (G' ψ)) := by
  obtain ⟨c, hc, h⟩ := h
  obtain ⟨d, hd, h'⟩ := h'
  refine ⟨d * c, by simp [hc, hd], fun ψ => ?_⟩
  simp only [h', hF _ _, h, smul_smul]

theorem OpPhaseEq.comp_left {F G G' : QState → QState} (hF : Homog F) (h' : OpPhaseEq G G') :
    OpPhaseEq (fun ψ => F (G ψ)) (fun ψ => F (G' ψ)) :=
  OpPhaseEq.comp hF (OpPhaseEq.refl F) h'

theorem OpPhaseEq.comp_right {F F' : QState → QState} (h : OpPhaseEq F F') (G : QState → QState) :
    OpPhaseEq (fun ψ => F (G ψ)) (fun ψ => F' (G ψ)) := by
  obtain ⟨c, hc, h⟩ := h
  exact ⟨c, hc, fun ψ => h _⟩

theorem OpPhaseEq.state {F G : QState → QState} (h : OpPhaseEq F G) (ψ : QState) :
    PhaseEq (F ψ) (G ψ) := by
  obtain ⟨c, hc, h⟩ := h; exact ⟨c, hc, h ψ⟩

theorem MatPhaseEq.opPhase {U V : Mat2} (h : MatPhaseEq U V) (n : ℕ) :
    OpPhaseEq (Graphix.op1 U n) (Graphix.op1 V n) := by
  obtain ⟨c, hc, h⟩ := h
  exact ⟨c, hc, fun ψ => by rw [h, op1_mat_smul]⟩

theorem Homog.op1 (U : Mat2) (n : ℕ) : Homog (op1 U n) := fun c ψ => op1_smul U n c ψ
theorem Homog.cz (u v : ℕ) : Homog (cz u v) := fun c ψ => cz_smul u v c ψ
theorem Homog.prep (n : ℕ) (v : Bool → ℂ) : Homog (prep n v) := fun c ψ => prep_smul n v c ψ
theorem Homog.projOut (n : ℕ) (v : Bool → ℂ) : Homog (projOut n v) :=
  fun c ψ => projOut_smul n v c ψ
theorem Homog.comp {F G : QState → QState} (hF : Homog F) (hG : Homog G) :
    Homog (fun ψ => F (G ψ)) := fun c ψ => by simp only [hG _ _, hF _ _]

theorem Command.sem_homog (r : ℕ → Bool) (c : Command) : Homog (c.sem r) := by
  cases c <;> intro k ψ <;>
    simp [Command.sem, op1_smul, cz_smul, prep_smul, projOut_smul]

theorem semCmds_homog (r : ℕ → Bool) (l : List Command) : Homog (semCmds r l) := by
  induction l with
  | nil => intro k ψ; rfl
  | cons c l ih => intro k ψ; simp only [semCmds_cons]; rw [c.sem_homog, ih]

end Graphix
