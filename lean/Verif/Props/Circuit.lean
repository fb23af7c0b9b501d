import Verif.Spec.Circuit
import Verif.Proofs.Signals
import Verif.Proofs.Measurement

/-!
# C36, C39: decompositions of circuit instructions
-/

namespace Graphix

open Function

/-! ### Semantics of lists of instructions -/

/-- Not a measurement. -/
def Instr.isGate : Instr → Prop
  | .M _ _ => False
  | _ => True

theorem semInstrs_cons_gate (o : ℕ → Bool) (k : ℕ) {i : Instr} (h : i.isGate) (l : List Instr) (ψ : QState) :
    semInstrs o k (i :: l) ψ = semInstrs o k l (i.gate ψ) := by
  cases i <;> first | rfl | exact h.elim

theorem semInstrs_cons_M (o : ℕ → Bool) (k t : ℕ) (a : Axis) (l : List Instr) (ψ : QState) :
    semInstrs o k (.M t a :: l) ψ = semInstrs o (k + 1) l (projOut t (measVec (.pauli ⟨a, .plus⟩) (o k)) ψ) := rfl

theorem Instr.gate_homog (i : Instr) : Homog i.gate := by
  intro c ψ
  cases i <;> simp only [Instr.gate, op1_smul, cz_smul, id] <;> funext b <;>
    simp [ccxOp, rzzOp, cnotOp, swapOp] <;> ring

theorem semInstrs_homog (o : ℕ → Bool) (l : List Instr) (k : ℕ) : Homog (semInstrs o k l) := by
  induction l generalizing k with
  | nil => intro c ψ; rfl
  | cons i l ih =>
    intro c ψ
    by_cases h : i.isGate
    · rw [semInstrs_cons_gate o k h, semInstrs_cons_gate o k h, i.gate_homog, ih]
    · cases i <;> first | exact absurd trivial h | skip
      rw [semInstrs_cons_M, semInstrs_cons_M, projOut_smul, ih]

/-- A list of gates, as a map. -/
noncomputable def gates (l : List Instr) (ψ : QState) : QState := l.foldl (fun ψ i => i.gate ψ) ψ

theorem semInstrs_gates (o : ℕ → Bool) (k : ℕ) (l l' : List Instr) (h : ∀ i ∈ l, i.isGate) (ψ : QState) :
    semInstrs o k (l ++ l') ψ = semInstrs o k l' (gates l ψ) := by
  induction l generalizing ψ with
  | nil => rfl
  | cons i l ih =>
    rw [List.cons_append, semInstrs_cons_gate o k (h i (by simp)), ih fun j hj => h j (by simp [hj])]; rfl

/-! ### Single-qubit matrices -/

theorem sqrt2_ne : (Real.sqrt 2 : ℂ) ≠ 0 := by
  exact_mod_cast (Real.sqrt_ne_zero'.2 (by norm_num : (0:ℝ) < 2))

theorem sqrt2_mul : (Real.sqrt 2 : ℂ) * (Real.sqrt 2 : ℂ) = 2 := by
  exact_mod_cast Real.mul_self_sqrt (by norm_num : (0:ℝ) ≤ 2)

theorem sqrt2_inv_mul : (1 / (Real.sqrt 2 : ℂ)) * (1 / (Real.sqrt 2 : ℂ)) = 1 / 2 := by
  rw [div_mul_div_comm, sqrt2_mul, one_mul]

/-- A phase `e^{iπθ}`. -/
noncomputable def ph (θ : ℝ) : ℂ := Complex.exp (Complex.I * (θ * Real.pi : ℝ))

theorem ph_norm (θ : ℝ) : ‖ph θ‖ = 1 := by
  unfold ph; rw [mul_comm]; exact Complex.norm_exp_ofReal_mul_I _

theorem ph_add (a b : ℝ) : ph (a + b) = ph a * ph b := by
  unfold ph; rw [← Complex.exp_add]; congr 1; push_cast; ring

@[simp] theorem ph_zero : ph 0 = 1 := by simp [ph]
theorem ph_one : ph 1 = -1 := by
  unfold ph; rw [one_mul, mul_comm, Complex.exp_pi_mul_I]
theorem ph_two : ph 2 = 1 := by rw [show (2:ℝ) = 1 + 1 by norm_num, ph_add, ph_one]; norm_num
theorem ph_half : ph (1/2) = Complex.I := by
  unfold ph
  rw [show Complex.I * ((1/2 * Real.pi : ℝ) : ℂ) = (Real.pi : ℂ) / 2 * Complex.I by push_cast; ring, Complex.exp_pi_div_two_mul_I]
theorem ph_neg_mul (a : ℝ) : ph (-a) * ph a = 1 := by rw [← ph_add]; simp
theorem ph_mul_neg (a : ℝ) : ph a * ph (-a) = 1 := by rw [← ph_add]; simp
theorem ph_ne (a : ℝ) : ph a ≠ 0 := fun h => by have := ph_norm a; rw [h] at this; simp at this
theorem ph_neg (a : ℝ) : ph (-a) = (ph a)⁻¹ := eq_inv_of_mul_eq_one_left (ph_neg_mul a)
theorem ph_conj (a : ℝ) : star (ph a) = ph (-a) := by
  unfold ph
  rw [Complex.star_def, ← Complex.exp_conj]; congr 1; simp

theorem cos_eq (θ : ℝ) : (Real.cos (θ * Real.pi / 2) : ℂ) = (ph (θ/2) + ph (-θ/2)) / 2 := by
  rw [Complex.ofReal_cos, Complex.cos, ph, ph]; congr 3 <;> (push_cast; ring)

theorem isin_eq (θ : ℝ) : Complex.I * (Real.sin (θ * Real.pi / 2) : ℂ) = (ph (θ/2) - ph (-θ/2)) / 2 := by
  rw [Complex.ofReal_sin, Complex.sin, ph, ph]
  rw [show Complex.I * ((θ/2 * Real.pi : ℝ) : ℂ) = ((θ * Real.pi / 2 : ℝ) : ℂ) * Complex.I by push_cast; ring,
    show Complex.I * ((-θ/2 * Real.pi : ℝ) : ℂ) = -((θ * Real.pi / 2 : ℝ) : ℂ) * Complex.I by push_cast; ring]
  linear_combination (-(1/2 : ℂ)) * (Complex.exp (((θ * Real.pi / 2 : ℝ) : ℂ) * Complex.I) -
    Complex.exp (-((θ * Real.pi / 2 : ℝ) : ℂ) * Complex.I)) * Complex.I_mul_I

theorem rotZ_eq (θ : ℝ) : rot Ops.Z θ = mat2 (ph (-θ/2)) 0 0 (ph (θ/2)) := by
  unfold rot
  rw [cos_eq, isin_eq]
  apply mat2_ext <;> simp [Ops.Z] <;> ring

theorem jGate_eq (θ : ℝ) : jGate θ = (1 / (Real.sqrt 2 : ℂ)) • mat2 1 (ph θ) 1 (-ph θ) := by
  unfold jGate Ops.H
  rw [Matrix.smul_mul, mat2_mul]
  congr 1
  apply mat2_ext <;> simp [ph]

theorem jGate_zero : jGate 0 = Ops.H := by
  rw [jGate_eq, ph_zero]; rfl

theorem J_mul (a b : ℝ) : jGate a * jGate b = (1/2 : ℂ) • mat2 (1 + ph a) (ph b * (1 - ph a)) (1 - ph a) (ph b * (1 + ph a)) := by
  rw [jGate_eq, jGate_eq, Matrix.smul_mul, Matrix.mul_smul, smul_smul, sqrt2_inv_mul, mat2_mul]
  congr 1
  apply mat2_ext <;> simp <;> ring

/-- The model's matrices are the textbook ones. -/
theorem Ops_rz_eq (θ : ℝ) : Ops.rz θ = rot Ops.Z θ := by
  rw [rotZ_eq]
  unfold Ops.rz ph
  apply mat2_ext <;> simp <;> (congr 1; ring)

theorem Ops_rx_eq (θ : ℝ) : Ops.rx θ = rot Ops.X θ := by
  unfold Ops.rx rot
  apply mat2_ext <;> simp [Ops.X]

theorem Ops_ry_eq (θ : ℝ) : Ops.ry θ = rot Ops.Y θ := by
  unfold Ops.ry rot
  apply mat2_ext <;> simp [Ops.Y, ← mul_assoc]
  · rw [show Complex.I * Complex.sin (θ * Real.pi / 2) * Complex.I = (Complex.I * Complex.I) * Complex.sin (θ * Real.pi / 2) by ring]
    simp
  · rw [show Complex.I * Complex.sin (θ * Real.pi / 2) * Complex.I = (Complex.I * Complex.I) * Complex.sin (θ * Real.pi / 2) by ring]
    simp

theorem Ops_j_eq (θ : ℝ) : Ops.j θ = jGate θ := by
  rw [jGate_eq]
  unfold Ops.j ph
  apply mat2_ext <;> simp
  ring

theorem mpe {U V : Mat2} (θ : ℝ) (h : U = ph θ • V) : MatPhaseEq U V := ⟨ph θ, ph_norm θ, h⟩

theorem rz_mat (θ : ℝ) : MatPhaseEq (jGate 0 * jGate θ) (rot Ops.Z θ) := by
  apply mpe (θ/2)
  rw [J_mul, rotZ_eq, mat2_smul, mat2_smul, ph_zero]
  have h1 : ph (θ/2) * ph (-θ/2) = 1 := by rw [← ph_add]; rw [show θ/2 + -θ/2 = 0 by ring, ph_zero]
  have h2 : ph (θ/2) * ph (θ/2) = ph θ := by rw [← ph_add]; congr 1; ring
  rw [h1, h2]
  apply mat2_ext <;> simp <;> ring

theorem rx_mat (θ : ℝ) : MatPhaseEq (jGate θ * jGate 0) (rot Ops.X θ) := by
  apply mpe (θ/2)
  rw [J_mul]
  unfold rot
  rw [cos_eq, isin_eq, ph_zero]
  have h1 : ph (θ/2) * ph (-θ/2) = 1 := by rw [← ph_add]; rw [show θ/2 + -θ/2 = 0 by ring, ph_zero]
  have h2 : ph (θ/2) * ph (θ/2) = ph θ := by rw [← ph_add]; congr 1; ring
  apply mat2_ext <;> simp [Ops.X]
  · linear_combination (-(1/2:ℂ)) * h1 - (1/2:ℂ) * h2
  · linear_combination (-(1/2:ℂ)) * h1 + (1/2:ℂ) * h2
  · linear_combination (-(1/2:ℂ)) * h1 + (1/2:ℂ) * h2
  · linear_combination (-(1/2:ℂ)) * h1 - (1/2:ℂ) * h2

theorem ry_mat (θ : ℝ) : MatPhaseEq (jGate 0 * jGate (1/2) * (jGate θ * jGate (-1/2))) (rot Ops.Y θ) := by
  apply mpe (θ/2)
  have h1 : ph (θ/2) * ph (-θ/2) = 1 := by rw [← ph_add]; rw [show θ/2 + -θ/2 = 0 by ring, ph_zero]
  have h2 : ph (θ/2) * ph (θ/2) = ph θ := by rw [← ph_add]; congr 1; ring
  have h3 : ph (-1/2) = -Complex.I := by
    rw [show (-1/2 : ℝ) = -(1/2) by ring, ph_neg, ph_half, Complex.inv_I]
  have hI := Complex.I_mul_I
  rw [J_mul, J_mul, ph_zero, ph_half, h3]
  unfold rot
  rw [cos_eq, isin_eq]
  apply mat2_ext <;> simp [Ops.Y, mul2_apply]
  · linear_combination (-(1/2:ℂ)) * h1 - (1/2:ℂ) * h2
  · linear_combination ((1/2:ℂ) * Complex.I) * h1 - (1/2:ℂ) * Complex.I * h2
  · linear_combination (-(1/2:ℂ) * Complex.I) * h1 + (1/2:ℂ) * Complex.I * h2
  · linear_combination (-(1/2:ℂ)) * h1 - (1/2:ℂ) * h2 - (1/2:ℂ) * (1 + ph θ) * hI

theorem rot_one (P : Mat2) : MatPhaseEq (rot P 1) P := by
  apply mpe (-1/2)
  have h3 : ph (-1/2) = -Complex.I := by
    rw [show (-1/2 : ℝ) = -(1/2) by ring, ph_neg, ph_half, Complex.inv_I]
  unfold rot
  rw [h3]; simp

theorem rotZ_half : MatPhaseEq (rot Ops.Z (1/2)) Ops.S := by
  apply mpe (-1/4)
  rw [rotZ_eq]
  unfold Ops.S
  rw [mat2_smul]
  apply mat2_ext <;> simp
  · congr 1; norm_num
  · rw [← ph_half, ← ph_add]; congr 1; norm_num

theorem Y_mat : MatPhaseEq (Ops.X * Ops.Z) Ops.Y := by
  refine ⟨-Complex.I, by simp, ?_⟩
  simp only [Ops.X, Ops.Z, Ops.Y, mat2_mul, mat2_smul]
  apply mat2_ext <;> simp

/-! ### Multi-qubit gates -/

theorem upd_eq {b : Basis} {n : ℕ} {v : Bool} (h : b n = v) : update b n v = b := by rw [← h, update_eq_self]

theorem cnot_eq {c t : ℕ} (h : c ≠ t) (ψ : QState) : op1 Ops.H t (cz c t (op1 Ops.H t ψ)) = cnotOp c t ψ := by
  funext b
  have hs := sqrt2_inv_mul
  simp only [op1, cz, cnotOp, update_self, update_of_ne h, update_idem, Ops.H, mat2_smul]
  cases hc : b c <;> cases ht : b t <;> simp at hs ⊢
  · linear_combination 2 * ψ (update b t false) * hs
  · linear_combination 2 * ψ (update b t true) * hs
  · linear_combination 2 * ψ (update b t true) * hs
  · linear_combination 2 * ψ (update b t false) * hs

theorem swap_eq {u v : ℕ} (h : u ≠ v) (ψ : QState) : cnotOp u v (cnotOp v u (cnotOp u v ψ)) = swapOp u v ψ := by
  funext b
  simp only [cnotOp, swapOp]
  congr 1
  funext n
  have h' := h.symm
  by_cases hv : n = v
  · subst hv; simp [h, h']
  · by_cases hu : n = u
    · subst hu; simp [h, h']; cases b n <;> cases b v <;> rfl
    · simp [hv, hu, Equiv.swap_apply_of_ne_of_ne]

theorem rz_apply (θ : ℝ) (n : ℕ) (ψ : QState) (b : Basis) :
    op1 (rot Ops.Z θ) n ψ b = ph (if b n then θ/2 else -θ/2) * ψ b := by
  rw [op1_diag (by rw [rotZ_eq]; exact ⟨rfl, rfl⟩), rotZ_eq]
  cases b n <;> rfl

theorem rzz_eq {c t : ℕ} (h : c ≠ t) (θ : ℝ) (ψ : QState) :
    cnotOp c t (op1 (rot Ops.Z θ) t (cnotOp c t ψ)) = rzzOp c t θ ψ := by
  funext b
  simp only [cnotOp, rz_apply, rzzOp, update_self, update_of_ne h, update_idem]
  have hb : update b t (Bool.xor (Bool.xor (b t) (b c)) (b c)) = b := upd_eq (by cases b t <;> cases b c <;> rfl)
  rw [hb]
  congr 1
  unfold ph
  congr 2
  cases b t <;> cases b c <;> simp <;> ring

/-- The diagonal gate that changes the sign when the three qubits are set. -/
noncomputable def cczOp (c0 c1 t : ℕ) (ψ : QState) : QState := fun b => (if b c0 && b c1 && b t then -1 else 1) * ψ b

theorem ccx_of_ccz {c0 c1 t : ℕ} (h0 : c0 ≠ t) (h1 : c1 ≠ t) (ψ : QState) :
    op1 Ops.H t (cczOp c0 c1 t (op1 Ops.H t ψ)) = ccxOp c0 c1 t ψ := by
  funext b
  have hs := sqrt2_inv_mul
  simp only [op1, cczOp, ccxOp, update_self, update_of_ne h0, update_of_ne h1, update_idem, Ops.H, mat2_smul]
  cases hc : b c0 <;> cases hc1 : b c1 <;> cases ht : b t <;> simp at hs ⊢
  all_goals first
    | linear_combination 2 * ψ (update b t false) * hs
    | linear_combination 2 * ψ (update b t true) * hs

theorem cnot_op1_comm {c t n : ℕ} (hc : c ≠ n) (ht : t ≠ n) (U : Mat2) (ψ : QState) :
    cnotOp c t (op1 U n ψ) = op1 U n (cnotOp c t ψ) := by
  funext b
  simp only [cnotOp, op1, update_of_ne ht.symm, update_of_ne hc, update_of_ne ht, update_comm ht]

theorem ccx_inner {c0 c1 t : ℕ} (h01 : c0 ≠ c1) (h0 : c0 ≠ t) (h1 : c1 ≠ t) (ψ : QState) :
    op1 (rot Ops.Z (1/2)) c1 (op1 (rot Ops.Z (1/4)) c0 (cnotOp c0 c1 (op1 (rot Ops.Z (-1/4)) c1 (cnotOp c0 c1
      (op1 (rot Ops.Z (1/4)) t (op1 (rot Ops.Z (-1/4)) c1 (cnotOp c0 t (op1 (rot Ops.Z (-1/4)) t (cnotOp c1 t
      (op1 (rot Ops.Z (1/4)) t (cnotOp c0 t (op1 (rot Ops.Z (-1/4)) t (cnotOp c1 t ψ))))))))))))) = ph (-1/8) • cczOp c0 c1 t ψ := by
  funext b
  simp only [Pi.smul_apply, smul_eq_mul, cczOp, cnotOp, rz_apply, update_self, update_of_ne h0, update_of_ne h1, update_of_ne h01,
    update_of_ne h01.symm, update_of_ne h0.symm, update_of_ne h1.symm, update_idem]
  have hb : update (update b c1 (b c1 ^^ b c0 ^^ b c0)) t
      (b t ^^ b c0 ^^ (b c1 ^^ b c0 ^^ b c0) ^^ b c0 ^^ (b c1 ^^ b c0 ^^ b c0)) = b := by
    rw [upd_eq (b := b) (n := c1) (by cases b c1 <;> cases b c0 <;> rfl)]
    exact upd_eq (by cases b t <;> cases b c1 <;> cases b c0 <;> rfl)
  rw [hb]
  simp only [← mul_assoc, ← ph_add]
  congr 1
  have hneg : ∀ x : ℝ, ph (x + 1) = -ph x := fun x => by rw [ph_add, ph_one]; ring
  cases b c0 <;> cases b c1 <;> cases b t <;>
    simp only [Bool.xor_false, Bool.xor_true, Bool.not_true, Bool.not_false, Bool.false_eq_true, if_true, if_false, Bool.and_false,
      Bool.and_true, Bool.false_and, mul_one, Bool.and_self] <;> first
    | (congr 1; norm_num; done)
    | (rw [mul_neg, mul_one, ← hneg]; congr 1; norm_num; done)

theorem ccx_sem {c0 c1 t : ℕ} (h01 : c0 ≠ c1) (h0 : c0 ≠ t) (h1 : c1 ≠ t) :
    OpPhaseEq (gates (decomposeCcx c0 c1 t)) (ccxOp c0 c1 t) := by
  refine ⟨ph (-1/8), ph_norm _, fun ψ => ?_⟩
  rw [← ccx_of_ccz h0 h1, ← op1_smul, ← ccx_inner h01 h0 h1]
  simp only [gates, decomposeCcx, List.foldl, Instr.gate]
  rw [op1_comm _ Ops.H h1, cnot_op1_comm h0 h1, op1_comm _ Ops.H h0, op1_comm _ Ops.H h1]

/-! ### The decompositions, one by one (C36) -/

theorem isGate_of_mem {l : List Instr} (h : ∀ i ∈ l, i.isGate) (o : ℕ → Bool) (k : ℕ) : semInstrs o k l = gates l := by
  funext ψ
  have := semInstrs_gates o k l [] h ψ
  rwa [List.append_nil] at this

theorem rzz_sem {c t : ℕ} (h : c ≠ t) (θ : ℝ) : OpPhaseEq (gates (decomposeRzz c t θ)) (rzzOp c t θ) :=
  .of_eq fun ψ => rzz_eq h θ ψ

theorem cnot_sem {c t : ℕ} (h : c ≠ t) : OpPhaseEq (gates (decomposeCnot c t)) (cnotOp c t) :=
  .of_eq fun ψ => cnot_eq h ψ

theorem swap_sem {u v : ℕ} (h : u ≠ v) : OpPhaseEq (gates (decomposeSwap u v)) (swapOp u v) :=
  .of_eq fun ψ => swap_eq h ψ

theorem y_sem (t : ℕ) : OpPhaseEq (gates (decomposeY t)) (op1 Ops.Y t) := by
  refine OpPhaseEq.trans (.of_eq fun ψ => ?_) (Y_mat.opPhase t)
  exact op1_mul _ _ _ _

theorem rx_sem (t : ℕ) (θ : ℝ) : OpPhaseEq (gates (decomposeRx t θ)) (op1 (rot Ops.X θ) t) := by
  refine OpPhaseEq.trans (.of_eq fun ψ => ?_) ((rx_mat θ).opPhase t)
  exact op1_mul _ _ _ _

theorem rz_sem (t : ℕ) (θ : ℝ) : OpPhaseEq (gates (decomposeRz t θ)) (op1 (rot Ops.Z θ) t) := by
  refine OpPhaseEq.trans (.of_eq fun ψ => ?_) ((rz_mat θ).opPhase t)
  exact op1_mul _ _ _ _

theorem ry_sem (t : ℕ) (θ : ℝ) : OpPhaseEq (gates (decomposeRy t θ)) (op1 (rot Ops.Y θ) t) := by
  refine OpPhaseEq.trans (.of_eq fun ψ => ?_) ((ry_mat θ).opPhase t)
  rw [← op1_mul, ← op1_mul, ← op1_mul]; rfl

/-- **C36, one instruction at a time.** Each decomposition used by `instructions_to_jcz` implements the gate it replaces,
up to a global phase that does not depend on the state. -/
theorem C36_decompositions :
    (∀ c t θ, c ≠ t → ∀ o k, OpPhaseEq (semInstrs o k (decomposeRzz c t θ)) (Instr.RZZ c t θ).gate) ∧
    (∀ c t, c ≠ t → ∀ o k, OpPhaseEq (semInstrs o k (decomposeCnot c t)) (Instr.CNOT c t).gate) ∧
    (∀ u v, u ≠ v → ∀ o k, OpPhaseEq (semInstrs o k (decomposeSwap u v)) (Instr.SWAP u v).gate) ∧
    (∀ c0 c1 t, c0 ≠ c1 → c0 ≠ t → c1 ≠ t → ∀ o k,
      OpPhaseEq (semInstrs o k (decomposeCcx c0 c1 t)) (Instr.CCX c0 c1 t).gate) ∧
    (∀ t o k, OpPhaseEq (semInstrs o k (decomposeY t)) (Instr.Y t).gate) ∧
    (∀ t θ o k, OpPhaseEq (semInstrs o k (decomposeRx t θ)) (Instr.RX t θ).gate) ∧
    (∀ t θ o k, OpPhaseEq (semInstrs o k (decomposeRy t θ)) (Instr.RY t θ).gate) ∧
    (∀ t θ o k, OpPhaseEq (semInstrs o k (decomposeRz t θ)) (Instr.RZ t θ).gate) := by
  refine ⟨fun c t θ h o k => rzz_sem h θ, fun c t h o k => cnot_sem h, fun u v h o k => swap_sem h,
    fun c0 c1 t h h0 h1 o k => ccx_sem h h0 h1, fun t o k => y_sem t, fun t θ o k => rx_sem t θ, fun t θ o k => ry_sem t θ,
    fun t θ o k => rz_sem t θ⟩

/-- The instructions of the `J`/`CZ` fragment, with measurements. -/
def Instr.IsJcz : Instr → Prop
  | .J _ _ | .CZ _ _ | .M _ _ => True
  | _ => False

/-- The instruction is `I`. -/
def Instr.isId : Instr → Prop
  | .I _ => True
  | _ => False

theorem jcz_gates (l : List Instr) : (∀ i ∈ l, i.isGate) → ∀ i ∈ instructionsToJcz l, i.isGate := by
  fun_induction instructionsToJcz l <;> simp_all [decomposeRx, decomposeRy, decomposeRz, decomposeRzz, decomposeY,
    decomposeSwap, decomposeCnot, decomposeCcx, Instr.isGate, or_imp, forall_and]

theorem jcz_isJcz (l : List Instr) : ∀ i ∈ instructionsToJcz l, i.IsJcz := by
  fun_induction instructionsToJcz l <;> simp_all [decomposeRx, decomposeRy, decomposeRz, Instr.IsJcz, or_imp, forall_and]

theorem sem_append_of (i : Instr) {o : ℕ → Bool} {k : ℕ} {A l l' : List Instr} (hi : i.isGate) (hA : ∀ i ∈ A, i.isGate)
    (h : OpPhaseEq (gates A) i.gate) (h' : OpPhaseEq (semInstrs o k l) (semInstrs o k l')) :
    OpPhaseEq (semInstrs o k (A ++ l)) (semInstrs o k (i :: l')) := by
  have h2 := OpPhaseEq.comp (semInstrs_homog o l k) h' h
  refine OpPhaseEq.trans (.of_eq fun ψ => semInstrs_gates o k A l hA ψ) (h2.trans (.of_eq fun ψ => ?_))
  rw [semInstrs_cons_gate o k hi]

/-- Preservation, with the recursive calls. -/
theorem jcz_sem (l : List Instr) : (∀ i ∈ l, i.Proper ∧ ¬ i.isId) → ∀ o k,
    OpPhaseEq (semInstrs o k (instructionsToJcz l)) (semInstrs o k l) := by
  fun_induction instructionsToJcz l with
  | case1 => exact fun _ o k => OpPhaseEq.refl _
  | case2 t θ l ih =>
    intro h o k
    exact OpPhaseEq.comp_right (ih (fun i hi => h i (by simp [hi])) o k) _
  | case3 u v l ih =>
    intro h o k
    exact OpPhaseEq.comp_right (ih (fun i hi => h i (by simp [hi])) o k) _
  | case4 t a l ih =>
    intro h o k
    exact OpPhaseEq.comp_right (ih (fun i hi => h i (by simp [hi])) o (k + 1)) _
  | case5 t l => intro h; exact absurd trivial (h (.I t) (by simp)).2
  | case6 t l ih =>
    intro h o k
    have h1 := OpPhaseEq.comp_right (ih (fun i hi => h i (by simp [hi])) o k) (op1 Ops.H t)
    rw [← jGate_zero] at h1
    refine OpPhaseEq.trans h1 (.of_eq fun ψ => ?_)
    rw [jGate_zero]; rfl
  | case7 t l ih =>
    intro h o k
    exact sem_append_of (.S t) trivial (by simp [decomposeRz, Instr.isGate]) ((rz_sem t (1/2)).trans (rotZ_half.opPhase t))
      (ih (fun i hi => h i (by simp [hi])) o k)
  | case8 t l ih =>
    intro h o k
    exact sem_append_of (.X t) trivial (by simp [decomposeRx, Instr.isGate]) ((rx_sem t 1).trans ((rot_one _).opPhase t))
      (ih (fun i hi => h i (by simp [hi])) o k)
  | case9 t l ih1 ih =>
    intro h o k
    have h1 := ih1 (by simp [decomposeY, Instr.Proper, Instr.isId]) o k
    rw [isGate_of_mem (jcz_gates _ (by simp [decomposeY, Instr.isGate])),
      isGate_of_mem (l := decomposeY t) (by simp [decomposeY, Instr.isGate])] at h1
    exact sem_append_of (.Y t) trivial (jcz_gates _ (by simp [decomposeY, Instr.isGate])) (h1.trans (y_sem t))
      (ih (fun i hi => h i (by simp [hi])) o k)
  | case10 t l ih =>
    intro h o k
    exact sem_append_of (.Z t) trivial (by simp [decomposeRz, Instr.isGate]) ((rz_sem t 1).trans ((rot_one _).opPhase t))
      (ih (fun i hi => h i (by simp [hi])) o k)
  | case11 t θ l ih =>
    intro h o k
    exact sem_append_of (.RX t θ) trivial (by simp [decomposeRx, Instr.isGate]) (rx_sem t θ) (ih (fun i hi => h i (by simp [hi])) o k)
  | case12 t θ l ih =>
    intro h o k
    exact sem_append_of (.RY t θ) trivial (by simp [decomposeRy, Instr.isGate]) (ry_sem t θ) (ih (fun i hi => h i (by simp [hi])) o k)
  | case13 t θ l ih =>
    intro h o k
    exact sem_append_of (.RZ t θ) trivial (by simp [decomposeRz, Instr.isGate]) (rz_sem t θ) (ih (fun i hi => h i (by simp [hi])) o k)
  | case14 c0 c1 t l ih1 ih =>
    intro h o k
    obtain ⟨h01, h0, h1'⟩ := (h _ List.mem_cons_self).1
    have hg : ∀ i ∈ decomposeCcx c0 c1 t, i.isGate := by simp [decomposeCcx, Instr.isGate]
    have h1 := ih1 (by simp [decomposeCcx, Instr.Proper, Instr.isId, h01, h0, h1']) o k
    rw [isGate_of_mem (jcz_gates _ hg), isGate_of_mem hg] at h1
    exact sem_append_of (.CCX c0 c1 t) trivial (jcz_gates _ hg) (h1.trans (ccx_sem h01 h0 h1')) (ih (fun i hi => h i (by simp [hi])) o k)
  | case15 c t θ l ih1 ih =>
    intro h o k
    have hp : c ≠ t := (h _ List.mem_cons_self).1
    have hg : ∀ i ∈ decomposeRzz c t θ, i.isGate := by simp [decomposeRzz, Instr.isGate]
    have h1 := ih1 (by simp [decomposeRzz, Instr.Proper, Instr.isId, hp]) o k
    rw [isGate_of_mem (jcz_gates _ hg), isGate_of_mem hg] at h1
    exact sem_append_of (.RZZ c t θ) trivial (jcz_gates _ hg) (h1.trans (rzz_sem hp θ)) (ih (fun i hi => h i (by simp [hi])) o k)
  | case16 c t l ih1 ih =>
    intro h o k
    have hp : c ≠ t := (h _ List.mem_cons_self).1
    have hg : ∀ i ∈ decomposeCnot c t, i.isGate := by simp [decomposeCnot, Instr.isGate]
    have h1 := ih1 (by simp [decomposeCnot, Instr.Proper, Instr.isId, hp]) o k
    rw [isGate_of_mem (jcz_gates _ hg), isGate_of_mem hg] at h1
    exact sem_append_of (.CNOT c t) trivial (jcz_gates _ hg) (h1.trans (cnot_sem hp)) (ih (fun i hi => h i (by simp [hi])) o k)
  | case17 u v l ih1 ih =>
    intro h o k
    have hp : u ≠ v := (h _ List.mem_cons_self).1
    have hg : ∀ i ∈ decomposeSwap u v, i.isGate := by simp [decomposeSwap, Instr.isGate]
    have h1 := ih1 (by simp [decomposeSwap, Instr.Proper, Instr.isId, hp, hp.symm]) o k
    rw [isGate_of_mem (jcz_gates _ hg), isGate_of_mem hg] at h1
    exact sem_append_of (.SWAP u v) trivial (jcz_gates _ hg) (h1.trans (swap_sem hp)) (ih (fun i hi => h i (by simp [hi])) o k)

/-- **C36.** For every sequence of instructions whose multi-qubit gates act on distinct qubits, and without `I`,
`instructions_to_jcz` gives `J`, `CZ` and `M` instructions only, and for every assignment of the measurement outcomes the
result acts on all states as the given sequence, up to a global phase. Missing: sequences with `I` (see
`C36_identity_drops_rest`). -/
theorem C36_instructions_to_jcz_partial (l : List Instr) (h : ∀ i ∈ l, i.Proper ∧ ¬ i.isId) :
    (∀ i ∈ instructionsToJcz l, i.IsJcz) ∧
      ∀ o k, OpPhaseEq (semInstrs o k (instructionsToJcz l)) (semInstrs o k l) :=
  ⟨jcz_isJcz l, jcz_sem l h⟩

example : ∀ i ∈ [Instr.CCX 0 1 2, .SWAP 0 2, .RZZ 1 2 (1/3), .Y 0, .M 1 .Y, .RY 0 (1/5)], i.Proper ∧ ¬ i.isId := by
  simp [Instr.Proper, Instr.isId]

/-- **C36 fails for `I`.** Every instruction after the first identity gate is dropped; for `[I, X]` the result is not the
same operation. -/
theorem C36_identity_drops_rest :
    (∀ t l, instructionsToJcz (.I t :: l) = []) ∧
      ∃ l : List Instr, (∀ i ∈ l, i.Proper) ∧ ¬ OpPhaseEq (semInstrs (fun _ => false) 0 (instructionsToJcz l))
        (semInstrs (fun _ => false) 0 l) := by
  have h0 : ∀ t l, instructionsToJcz (.I t :: l) = [] := fun t l => by rw [instructionsToJcz]
  refine ⟨h0, [.I 0, .X 0], by simp [Instr.Proper], ?_⟩
  rintro ⟨c, hc, h⟩
  have h1 := congrFun (h fun b => if b 0 then 1 else 0) (fun _ => false)
  have h2 := congrFun (h fun b => if b 0 then 1 else 0) (fun _ => true)
  rw [h0] at h1
  simp [semInstrs, Instr.gate, op1, Ops.X] at h1
  rcases h1 with rfl
  simp at hc

end Graphix
