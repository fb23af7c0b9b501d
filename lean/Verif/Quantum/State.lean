import Mathlib.Data.Complex.Basic
import Mathlib.Data.Complex.BigOperators
import Mathlib.Analysis.Complex.Basic
import Mathlib.Data.Matrix.Basic
import Mathlib.Data.Matrix.Mul
import Mathlib.LinearAlgebra.Matrix.ConjTranspose
import Mathlib.Data.Fintype.BigOperators
import Mathlib.Tactic.Ring
import Mathlib.Tactic.LinearCombination
import Mathlib.Tactic.FieldSimp
import Mathlib.Tactic.FinCases

/-!
# Quantum states over node names (specification layer)

This file is *specification*: textbook definitions that the property theorems are stated with.
Nodes (`int` in graphix) are natural numbers.  A computational basis state assigns a bit to every
node; a (not necessarily normalised) state assigns an amplitude to every basis state.  Only
finitely many nodes matter at any time; a state just ignores the bit of a node that does not exist.
-/

namespace Graphix

open Function

/-- Computational basis states: one bit per node name. -/
abbrev Basis := ℕ → Bool

/-- Unnormalised pure states. -/
abbrev QState := Basis → ℂ

/-- Single-qubit matrices, rows and columns indexed by the bit. -/
abbrev Mat2 := Matrix Bool Bool ℂ

/-- Write a single-qubit matrix row by row, like `np.asarray([[a, b], [c, d]])`. -/
def mat2 (a b c d : ℂ) : Mat2 := fun i j =>
  match i, j with
  | false, false => a
  | false, true => b
  | true, false => c
  | true, true => d

@[simp] theorem mat2_ff (a b c d : ℂ) : mat2 a b c d false false = a := rfl
@[simp] theorem mat2_ft (a b c d : ℂ) : mat2 a b c d false true = b := rfl
@[simp] theorem mat2_tf (a b c d : ℂ) : mat2 a b c d true false = c := rfl
@[simp] theorem mat2_tt (a b c d : ℂ) : mat2 a b c d true true = d := rfl

theorem mat2_ext {U V : Mat2} (h1 : U false false = V false false)
    (h2 : U false true = V false true) (h3 : U true false = V true false)
    (h4 : U true true = V true true) : U = V := by
  ext i j; cases i <;> cases j <;> assumption

theorem mat2_eta (U : Mat2) :
    U = mat2 (U false false) (U false true) (U true false) (U true true) :=
  mat2_ext rfl rfl rfl rfl

theorem mul2_apply (U V : Mat2) (i j : Bool) :
    (U * V) i j = U i false * V false j + U i true * V true j := by
  simp [Matrix.mul_apply, add_comm]

theorem mat2_mul (a b c d a' b' c' d' : ℂ) :
    mat2 a b c d * mat2 a' b' c' d' =
      mat2 (a * a' + b * c') (a * b' + b * d') (c * a' + d * c') (c * b' + d * d') := by
  apply mat2_ext <;> simp [mul2_apply]

theorem mat2_smul (k a b c d : ℂ) :
    k • mat2 a b c d = mat2 (k * a) (k * b) (k * c) (k * d) := by
  apply mat2_ext <;> simp

theorem mat2_add (a b c d a' b' c' d' : ℂ) :
    mat2 a b c d + mat2 a' b' c' d' = mat2 (a + a') (b + b') (c + c') (d + d') := by
  apply mat2_ext <;> simp

theorem mat2_neg (a b c d : ℂ) : -mat2 a b c d = mat2 (-a) (-b) (-c) (-d) := by
  apply mat2_ext <;> simp

theorem mat2_one : (1 : Mat2) = mat2 1 0 0 1 := by
  apply mat2_ext <;> simp

theorem mat2_conjTranspose (a b c d : ℂ) :
    (mat2 a b c d).conjTranspose = mat2 (star a) (star c) (star b) (star d) := by
  apply mat2_ext <;> simp [Matrix.conjTranspose_apply]

/-- Apply a single-qubit operator to node `n`. -/
noncomputable def op1 (U : Mat2) (n : ℕ) (ψ : QState) : QState := fun b =>
  U (b n) false * ψ (update b n false) + U (b n) true * ψ (update b n true)

/-- Controlled-Z between nodes `u` and `v`. -/
noncomputable def cz (u v : ℕ) (ψ : QState) : QState := fun b =>
  (if b u && b v then -1 else 1) * ψ b

/-- Tensor in a fresh node `n` in single-qubit state `v`. -/
noncomputable def prep (n : ℕ) (v : Bool → ℂ) (ψ : QState) : QState := fun b => v (b n) * ψ b

/-- Project node `n` on the single-qubit vector `v` and discard the node: `(⟨v|ₙ ⊗ 1) ψ`. -/
noncomputable def projOut (n : ℕ) (v : Bool → ℂ) (ψ : QState) : QState := fun b =>
  star (v false) * ψ (update b n false) + star (v true) * ψ (update b n true)

/-- `U` if `b`, else the identity. -/
noncomputable def powB (U : Mat2) (b : Bool) : Mat2 := if b then U else 1

/-- Equality of states up to a global phase. -/
def PhaseEq (ψ φ : QState) : Prop := ∃ c : ℂ, ‖c‖ = 1 ∧ ψ = c • φ

/-- Equality of single-qubit operators up to a global phase. -/
def MatPhaseEq (U V : Mat2) : Prop := ∃ c : ℂ, ‖c‖ = 1 ∧ U = c • V

/-- The bra as a (rank-deficient) operator whose rows are all the bra: lets `projOut` share the
lemmas of `op1`. -/
noncomputable def bra (v : Bool → ℂ) : Mat2 := fun _ j => star (v j)

theorem projOut_eq_op1 (n : ℕ) (v : Bool → ℂ) (ψ : QState) : projOut n v ψ = op1 (bra v) n ψ := rfl

theorem PhaseEq.refl (ψ : QState) : PhaseEq ψ ψ := ⟨1, by simp, by simp⟩

theorem PhaseEq.of_eq {ψ φ : QState} (h : ψ = φ) : PhaseEq ψ φ := h ▸ PhaseEq.refl ψ

theorem PhaseEq.symm {ψ φ : QState} (h : PhaseEq ψ φ) : PhaseEq φ ψ := by
  obtain ⟨c, hc, rfl⟩ := h
  have h0 : c ≠ 0 := by intro h; simp [h] at hc
  refine ⟨c⁻¹, by simp [hc], ?_⟩
  rw [smul_smul, inv_mul_cancel₀ h0, one_smul]

theorem PhaseEq.trans {ψ φ χ : QState} (h : PhaseEq ψ φ) (h' : PhaseEq φ χ) : PhaseEq ψ χ := by
  obtain ⟨c, hc, rfl⟩ := h
  obtain ⟨d, hd, rfl⟩ := h'
  exact ⟨c * d, by simp [hc, hd], by rw [smul_smul]⟩

theorem MatPhaseEq.refl (U : Mat2) : MatPhaseEq U U := ⟨1, by simp, by simp⟩

theorem MatPhaseEq.of_eq {U V : Mat2} (h : U = V) : MatPhaseEq U V := h ▸ MatPhaseEq.refl U

theorem MatPhaseEq.symm {ψ φ : Mat2} (h : MatPhaseEq ψ φ) : MatPhaseEq φ ψ := by
  obtain ⟨c, hc, rfl⟩ := h
  have h0 : c ≠ 0 := by intro h; simp [h] at hc
  refine ⟨c⁻¹, by simp [hc], ?_⟩
  rw [smul_smul, inv_mul_cancel₀ h0, one_smul]

theorem MatPhaseEq.trans {ψ φ χ : Mat2} (h : MatPhaseEq ψ φ) (h' : MatPhaseEq φ χ) :
    MatPhaseEq ψ χ := by
  obtain ⟨c, hc, rfl⟩ := h
  obtain ⟨d, hd, rfl⟩ := h'
  exact ⟨c * d, by simp [hc, hd], by rw [smul_smul]⟩

theorem MatPhaseEq.mul {U V U' V' : Mat2} (h : MatPhaseEq U U') (h' : MatPhaseEq V V') :
    MatPhaseEq (U * V) (U' * V') := by
  obtain ⟨c, hc, rfl⟩ := h
  obtain ⟨d, hd, rfl⟩ := h'
  exact ⟨c * d, by simp [hc, hd], by simp [smul_smul, mul_comm]⟩

/-! ### Linearity -/

theorem op1_smul (U : Mat2) (n : ℕ) (c : ℂ) (ψ : QState) : op1 U n (c • ψ) = c • op1 U n ψ := by
  funext b; simp [op1]; ring

theorem op1_add (U : Mat2) (n : ℕ) (ψ φ : QState) : op1 U n (ψ + φ) = op1 U n ψ + op1 U n φ := by
  funext b; simp [op1]; ring

theorem op1_mat_smul (U : Mat2) (n : ℕ) (c : ℂ) (ψ : QState) : op1 (c • U) n ψ = c • op1 U n ψ := by
  funext b; simp [op1]; ring

theorem op1_mat_add (U V : Mat2) (n : ℕ) (ψ : QState) :
    op1 (U + V) n ψ = op1 U n ψ + op1 V n ψ := by
  funext b; simp [op1]; ring

theorem cz_smul (u v : ℕ) (c : ℂ) (ψ : QState) : cz u v (c • ψ) = c • cz u v ψ := by
  funext b; simp [cz]

theorem prep_smul (n : ℕ) (v : Bool → ℂ) (c : ℂ) (ψ : QState) :
    prep n v (c • ψ) = c • prep n v ψ := by
  funext b; simp [prep]; ring

theorem projOut_smul (n : ℕ) (v : Bool → ℂ) (c : ℂ) (ψ : QState) :
    projOut n v (c • ψ) = c • projOut n v ψ := by
  simp only [projOut_eq_op1, op1_smul]

theorem PhaseEq.op1 {ψ φ : QState} (h : PhaseEq ψ φ) (U : Mat2) (n : ℕ) :
    PhaseEq (Graphix.op1 U n ψ) (Graphix.op1 U n φ) := by
  obtain ⟨c, hc, rfl⟩ := h; exact ⟨c, hc, op1_smul _ _ _ _⟩

theorem PhaseEq.cz {ψ φ : QState} (h : PhaseEq ψ φ) (u v : ℕ) :
    PhaseEq (Graphix.cz u v ψ) (Graphix.cz u v φ) := by
  obtain ⟨c, hc, rfl⟩ := h; exact ⟨c, hc, cz_smul _ _ _ _⟩

theorem PhaseEq.prep {ψ φ : QState} (h : PhaseEq ψ φ) (n : ℕ) (v : Bool → ℂ) :
    PhaseEq (Graphix.prep n v ψ) (Graphix.prep n v φ) := by
  obtain ⟨c, hc, rfl⟩ := h; exact ⟨c, hc, prep_smul _ _ _ _⟩

theorem PhaseEq.projOut {ψ φ : QState} (h : PhaseEq ψ φ) (n : ℕ) (v : Bool → ℂ) :
    PhaseEq (Graphix.projOut n v ψ) (Graphix.projOut n v φ) := by
  obtain ⟨c, hc, rfl⟩ := h; exact ⟨c, hc, projOut_smul _ _ _ _⟩

theorem MatPhaseEq.op1 {U V : Mat2} (h : MatPhaseEq U V) (n : ℕ) (ψ : QState) :
    PhaseEq (Graphix.op1 U n ψ) (Graphix.op1 V n ψ) := by
  obtain ⟨c, hc, rfl⟩ := h; exact ⟨c, hc, op1_mat_smul _ _ _ _⟩

/-! ### Algebra -/

theorem op1_mul (U V : Mat2) (n : ℕ) (ψ : QState) : op1 U n (op1 V n ψ) = op1 (U * V) n ψ := by
  funext b; simp [op1, mul2_apply]; ring

theorem op1_one (n : ℕ) (ψ : QState) : op1 1 n ψ = ψ := by
  funext b
  cases h : b n
  · simp only [op1, h, mat2_one, mat2_ff, mat2_ft, one_mul, zero_mul, add_zero]
    rw [← h, update_eq_self]
  · simp only [op1, h, mat2_one, mat2_tf, mat2_tt, one_mul, zero_mul, zero_add]
    rw [← h, update_eq_self]

theorem op1_comm (U V : Mat2) {m n : ℕ} (h : m ≠ n) (ψ : QState) :
    op1 U m (op1 V n ψ) = op1 V n (op1 U m ψ) := by
  funext b
  have h' := h.symm
  simp only [op1, update_of_ne h, update_of_ne h']
  simp only [update_comm h]
  ring

theorem cz_symm (u v : ℕ) (ψ : QState) : cz u v ψ = cz v u ψ := by
  funext b; simp [cz, Bool.and_comm]

theorem cz_comm (u v u' v' : ℕ) (ψ : QState) : cz u v (cz u' v' ψ) = cz u' v' (cz u v ψ) := by
  funext b; simp only [cz]; ring

theorem cz_cz (u v : ℕ) (ψ : QState) : cz u v (cz u v ψ) = ψ := by
  funext b; simp only [cz]; split <;> simp

theorem cz_op1_of_ne (U : Mat2) {u v n : ℕ} (hu : u ≠ n) (hv : v ≠ n) (ψ : QState) :
    cz u v (op1 U n ψ) = op1 U n (cz u v ψ) := by
  funext b; simp only [op1, cz, update_of_ne hu, update_of_ne hv]; ring

theorem prep_op1_of_ne (U : Mat2) {m n : ℕ} (h : m ≠ n) (v : Bool → ℂ) (ψ : QState) :
    prep m v (op1 U n ψ) = op1 U n (prep m v ψ) := by
  funext b; simp only [op1, prep, update_of_ne h]; ring

theorem prep_cz (m : ℕ) (w : Bool → ℂ) (u v : ℕ) (ψ : QState) :
    prep m w (cz u v ψ) = cz u v (prep m w ψ) := by
  funext b; simp only [prep, cz]; ring

theorem prep_comm (m n : ℕ) (v w : Bool → ℂ) (ψ : QState) :
    prep m v (prep n w ψ) = prep n w (prep m v ψ) := by
  funext b; simp only [prep]; ring

/-- A matrix is diagonal. -/
def Mat2.Diag (U : Mat2) : Prop := U false true = 0 ∧ U true false = 0

theorem op1_diag {U : Mat2} (h : Mat2.Diag U) (n : ℕ) (ψ : QState) (b : Basis) :
    op1 U n ψ b = U (b n) (b n) * ψ b := by
  cases hb : b n
  · have : update b n false = b := by rw [← hb, update_eq_self]
    simp [op1, hb, h.1, this]
  · have : update b n true = b := by rw [← hb, update_eq_self]
    simp [op1, hb, h.2, this]

theorem cz_op1_diag {U : Mat2} (h : Mat2.Diag U) (u v n : ℕ) (ψ : QState) :
    cz u v (op1 U n ψ) = op1 U n (cz u v ψ) := by
  funext b; rw [op1_diag h]; simp only [cz]; rw [op1_diag h]; ring

end Graphix
