import Verif.Props.Circuit
import Verif.Proofs.FlowCheck2

/-!
# C39: changing the basis of the circuit measurements, and eliminating `J`
-/

namespace Graphix

open Function

theorem bra_of_conj {U : Mat2} (hU : U.conjTranspose * U = 1) {m m' : Measurement}
    (h : U.conjTranspose * observable m * U = observable m') (s : Bool) :
    MatPhaseEq (bra (measVec m s) * U) (bra (measVec m' s)) := by
  apply bra_conj
  rw [measureOperator_eq, measureOperator_eq, ← h]
  rw [Matrix.mul_smul, Matrix.smul_mul, Matrix.mul_add, Matrix.add_mul, Matrix.mul_one, hU, Matrix.mul_smul, Matrix.smul_mul]

theorem H_unitary : Ops.H.conjTranspose * Ops.H = 1 := by
  have h := sqrt2_inv_mul
  unfold Ops.H
  simp only [mat2_smul, mat2_conjTranspose, mat2_mul]
  apply mat2_ext <;> simp at h ⊢ <;> linear_combination 2 * h

theorem H_conj_Z : Ops.H.conjTranspose * Ops.Z * Ops.H = Ops.X := by
  have h := sqrt2_inv_mul
  unfold Ops.H Ops.Z Ops.X
  simp only [mat2_smul, mat2_conjTranspose, mat2_mul]
  apply mat2_ext <;> simp at h ⊢ <;> linear_combination 2 * h

theorem cos_quarter : (Real.cos (1/2 * Real.pi / 2) : ℂ) = (Real.sqrt 2 : ℂ) / 2 := by
  rw [show (1/2 * Real.pi / 2 : ℝ) = Real.pi / 4 by ring, Real.cos_pi_div_four]; push_cast; rfl
theorem sin_quarter : (Real.sin (1/2 * Real.pi / 2) : ℂ) = (Real.sqrt 2 : ℂ) / 2 := by
  rw [show (1/2 * Real.pi / 2 : ℝ) = Real.pi / 4 by ring, Real.sin_pi_div_four]; push_cast; rfl

theorem rotX_half : rot Ops.X (1/2) = mat2 ((Real.sqrt 2 : ℂ) / 2) (-Complex.I * ((Real.sqrt 2 : ℂ) / 2))
    (-Complex.I * ((Real.sqrt 2 : ℂ) / 2)) ((Real.sqrt 2 : ℂ) / 2) := by
  unfold rot
  rw [cos_quarter, sin_quarter]
  apply mat2_ext <;> simp [Ops.X]

theorem rotX_half_unitary : (rot Ops.X (1/2)).conjTranspose * rot Ops.X (1/2) = 1 := by
  have h := sqrt2_mul
  have hI := Complex.I_mul_I
  rw [rotX_half, mat2_conjTranspose, mat2_mul]
  apply mat2_ext <;> simp
  · linear_combination (1/2) * h - (1/4) * (Real.sqrt 2 : ℂ) * (Real.sqrt 2 : ℂ) * hI
  · ring
  · ring
  · linear_combination (1/2) * h - (1/4) * (Real.sqrt 2 : ℂ) * (Real.sqrt 2 : ℂ) * hI

theorem rotX_half_conj_Z : (rot Ops.X (1/2)).conjTranspose * Ops.Z * rot Ops.X (1/2) = Ops.Y := by
  have h := sqrt2_mul
  have hI := Complex.I_mul_I
  rw [rotX_half, mat2_conjTranspose]
  unfold Ops.Z Ops.Y
  simp only [mat2_mul]
  apply mat2_ext <;> simp
  · linear_combination  (1/4) * (Real.sqrt 2 : ℂ) * (Real.sqrt 2 : ℂ) * hI
  · linear_combination (-Complex.I/2) * h
  · linear_combination (Complex.I/2) * h
  · linear_combination -(1/4) * (Real.sqrt 2 : ℂ) * (Real.sqrt 2 : ℂ) * hI

theorem observable_pauli_plus (a : Axis) : observable (.pauli ⟨a, .plus⟩) = Ops.fromAxis a := by
  simp [observable, Sign.toComplex, Sign.toInt]

theorem bra_X_of_Z (s : Bool) :
    MatPhaseEq (bra (measVec (.pauli ⟨.Z, .plus⟩) s) * Ops.H) (bra (measVec (.pauli ⟨.X, .plus⟩) s)) := by
  apply bra_of_conj H_unitary
  rw [observable_pauli_plus, observable_pauli_plus]; exact H_conj_Z

theorem bra_Y_of_Z (s : Bool) :
    MatPhaseEq (bra (measVec (.pauli ⟨.Z, .plus⟩) s) * rot Ops.X (1/2)) (bra (measVec (.pauli ⟨.Y, .plus⟩) s)) := by
  apply bra_of_conj rotX_half_unitary
  rw [observable_pauli_plus, observable_pauli_plus]; exact rotX_half_conj_Z

/-! ### Building circuits -/

/-- The active qubits after an instruction. -/
def Instr.after (s : Finset ℕ) : Instr → Finset ℕ
  | .M t _ => s.erase t
  | _ => s

namespace Circuit

theorem add_ok_iff {c c' : Circuit} {i : Instr} :
    c.add i = .ok c' ↔ instrOk c.active i = true ∧ c' = ⟨c.width, c.instrs ++ [i], i.after c.active⟩ := by
  unfold add
  split
  · rename_i h
    cases i <;> simp [h, Instr.after, eq_comm]
  · rename_i h
    simp [h]

/-- The assertions hold along a list of instructions. -/
def listOk : Finset ℕ → List Instr → Prop
  | _, [] => True
  | s, i :: l => instrOk s i = true ∧ listOk (i.after s) l

/-- The active qubits after a list of instructions. -/
def afterList : Finset ℕ → List Instr → Finset ℕ
  | s, [] => s
  | s, i :: l => afterList (i.after s) l

theorem extend_ok_iff {l : List Instr} {c c' : Circuit} :
    c.extend l = .ok c' ↔ listOk c.active l ∧ c' = ⟨c.width, c.instrs ++ l, afterList c.active l⟩ := by
  induction l generalizing c with
  | nil => simp [extend, listOk, afterList, eq_comm]
  | cons i l ih =>
    simp only [extend, listOk, afterList]
    rw [bind_ok_iff]
    constructor
    · rintro ⟨c1, h1, h2⟩
      obtain ⟨h3, rfl⟩ := add_ok_iff.1 h1
      obtain ⟨h4, rfl⟩ := ih.1 h2
      exact ⟨⟨h3, h4⟩, by simp⟩
    · rintro ⟨⟨h3, h4⟩, rfl⟩
      exact ⟨_, add_ok_iff.2 ⟨h3, rfl⟩, ih.2 ⟨h4, by simp⟩⟩

theorem listOk_append {s : Finset ℕ} {l l' : List Instr} :
    listOk s (l ++ l') ↔ listOk s l ∧ listOk (afterList s l) l' := by
  induction l generalizing s with
  | nil => simp [listOk, afterList]
  | cons i l ih => simp [listOk, afterList, ih, and_assoc]

theorem afterList_append {s : Finset ℕ} {l l' : List Instr} : afterList s (l ++ l') = afterList (afterList s l) l' := by
  induction l generalizing s with
  | nil => rfl
  | cons i l ih => simp [afterList, ih]

theorem flatMap_ok {f : Instr → List Instr} (hf : ∀ s i, instrOk s i = true → listOk s (f i) ∧ afterList s (f i) = i.after s)
    {l : List Instr} {s : Finset ℕ} (h : listOk s l) : listOk s (l.flatMap f) ∧ afterList s (l.flatMap f) = afterList s l := by
  induction l generalizing s with
  | nil => exact ⟨trivial, rfl⟩
  | cons i l ih =>
    obtain ⟨h1, h2⟩ := h
    obtain ⟨h3, h4⟩ := hf s i h1
    rw [List.flatMap_cons, listOk_append, afterList_append, h4]
    exact ⟨⟨h3, (ih h2).1⟩, (ih h2).2⟩

/-- The circuit was built by the methods of the class, from the given number of qubits. -/
def Built (c : Circuit) : Prop := ∃ w l, (Circuit.new w).extend l = .ok c

theorem Built.listOk {c : Circuit} (h : c.Built) : Circuit.listOk (Finset.range c.width) c.instrs ∧
    c.active = afterList (Finset.range c.width) c.instrs := by
  obtain ⟨w, l, h⟩ := h
  obtain ⟨h1, rfl⟩ := extend_ok_iff.1 h
  simpa [Circuit.new] using h1

theorem zAxis_ok (s : Finset ℕ) (i : Instr) (h : instrOk s i = true) :
    Circuit.listOk s (zAxisInstrs i) ∧ afterList s (zAxisInstrs i) = i.after s := by
  cases i with
  | M t a => cases a <;> simp_all [zAxisInstrs, Circuit.listOk, afterList, instrOk, Instr.after]
  | _ => simp_all [zAxisInstrs, Circuit.listOk, afterList]

theorem rzh_ok (s : Finset ℕ) (i : Instr) (h : instrOk s i = true) :
    Circuit.listOk s (jToRzhInstrs i) ∧ afterList s (jToRzhInstrs i) = i.after s := by
  cases i with
  | J t a => simp_all [jToRzhInstrs, Circuit.listOk, afterList, instrOk, Instr.after]
  | _ => simp_all [jToRzhInstrs, Circuit.listOk, afterList]

theorem zAxis_sem (l : List Instr) (o : ℕ → Bool) (k : ℕ) :
    OpPhaseEq (semInstrs o k (l.flatMap zAxisInstrs)) (semInstrs o k l) := by
  induction l generalizing k with
  | nil => exact OpPhaseEq.refl _
  | cons i l ih =>
    rw [List.flatMap_cons]
    by_cases hi : i.isGate
    · have : zAxisInstrs i = [i] := by cases i <;> first | rfl | exact hi.elim
      rw [this]
      refine sem_append_of i hi (by simpa using hi) (OpPhaseEq.refl _) (ih k)
    · cases i <;> first | exact absurd trivial hi | skip
      rename_i t a
      have h1 := fun A B (h : OpPhaseEq A B) => OpPhaseEq.comp (semInstrs_homog o (l.flatMap zAxisInstrs) (k+1)) (ih (k + 1)) h
      have h2 : ∀ A, MatPhaseEq A (bra (measVec (.pauli ⟨a, .plus⟩) (o k))) →
          OpPhaseEq (fun ψ => semInstrs o (k + 1) (l.flatMap zAxisInstrs) (op1 A t ψ)) (semInstrs o k (.M t a :: l)) := by
        intro A hA
        have h3 := h1 _ _ (hA.opPhase t)
        exact h3
      cases a with
      | X =>
        refine OpPhaseEq.trans (.of_eq fun ψ => ?_) (h2 _ (bra_X_of_Z (o k)))
        rw [← op1_mul]; rfl
      | Y =>
        refine OpPhaseEq.trans (.of_eq fun ψ => ?_) (h2 _ (bra_Y_of_Z (o k)))
        rw [← op1_mul]; rfl
      | Z => exact h2 _ (MatPhaseEq.refl _)

theorem jGate_rz (θ : ℝ) : MatPhaseEq (Ops.H * rot Ops.Z θ) (jGate θ) := by
  apply mpe (-θ/2)
  have h1 : ph (-θ/2) * ph θ = ph (θ/2) := by rw [← ph_add]; congr 1; ring
  unfold jGate
  rw [rotZ_eq, ← Matrix.mul_smul, mat2_smul]
  congr 1
  apply mat2_ext <;> simp
  rw [← h1, ph, ph]; push_cast; rfl

theorem rzh_sem (l : List Instr) (o : ℕ → Bool) (k : ℕ) :
    OpPhaseEq (semInstrs o k (l.flatMap jToRzhInstrs)) (semInstrs o k l) := by
  induction l generalizing k with
  | nil => exact OpPhaseEq.refl _
  | cons i l ih =>
    rw [List.flatMap_cons]
    by_cases hi : i.isGate
    · cases i <;> first
        | exact hi.elim
        | exact sem_append_of _ trivial (by simp [jToRzhInstrs, Instr.isGate]) (OpPhaseEq.refl _) (ih k)
        | skip
      rename_i t θ
      refine sem_append_of _ trivial (by simp [jToRzhInstrs, Instr.isGate]) ?_ (ih k)
      refine OpPhaseEq.trans (.of_eq fun ψ => ?_) ((jGate_rz θ).opPhase t)
      rw [← op1_mul]; rfl
    · cases i <;> first | exact absurd trivial hi | skip
      exact OpPhaseEq.comp_right (ih (k + 1)) _

end Circuit

/-- **C39.** For every circuit built with the API, `transpile_measurements_to_z_axis` succeeds; the new circuit measures
in the Z axis only, has the same active qubits, and for every assignment of the outcomes acts on all states as the given
one, up to a global phase. -/
theorem C39_measurements_to_z_axis (c : Circuit) (hc : c.Built) :
    ∃ c', c.transpileMeasurementsToZAxis = .ok c' ∧ c'.width = c.width ∧ c'.active = c.active ∧
      (∀ t a, Instr.M t a ∈ c'.instrs → a = .Z) ∧
      ∀ o k, OpPhaseEq (semInstrs o k c'.instrs) (semInstrs o k c.instrs) := by
  obtain ⟨h1, h2⟩ := hc.listOk
  obtain ⟨h3, h4⟩ := Circuit.flatMap_ok Circuit.zAxis_ok h1
  refine ⟨_, Circuit.extend_ok_iff.2 ⟨h3, rfl⟩, rfl, h4.trans h2.symm, ?_, fun o k => ?_⟩
  · intro t a h
    simp only [Circuit.new, List.nil_append, List.mem_flatMap] at h
    obtain ⟨i, _, hi⟩ := h
    cases i with
    | M t' a' => cases a' <;> simp_all [Circuit.zAxisInstrs]
    | _ => simp_all [Circuit.zAxisInstrs]
  · exact Circuit.zAxis_sem c.instrs o k

/-- **C39.** For every circuit built with the API, `transpile_j_to_rzh` succeeds; the new circuit has no `J`, the same
active qubits, and acts as the given one, up to a global phase. -/
theorem C39_j_to_rzh (c : Circuit) (hc : c.Built) :
    ∃ c', c.transpileJToRzh = .ok c' ∧ c'.width = c.width ∧ c'.active = c.active ∧
      (∀ t θ, Instr.J t θ ∉ c'.instrs) ∧
      ∀ o k, OpPhaseEq (semInstrs o k c'.instrs) (semInstrs o k c.instrs) := by
  obtain ⟨h1, h2⟩ := hc.listOk
  obtain ⟨h3, h4⟩ := Circuit.flatMap_ok Circuit.rzh_ok h1
  refine ⟨_, Circuit.extend_ok_iff.2 ⟨h3, rfl⟩, rfl, h4.trans h2.symm, ?_, fun o k => ?_⟩
  · intro t a h
    simp only [Circuit.new, List.nil_append, List.mem_flatMap] at h
    obtain ⟨i, _, hi⟩ := h
    cases i <;> simp_all [Circuit.jToRzhInstrs]
  · exact Circuit.rzh_sem c.instrs o k

/-- A circuit with gates before and after measurements in the three axes. -/
example : ∃ c : Circuit, c.Built ∧
    c.instrs = [.J 0 (1/3), .CNOT 0 1, .M 0 .X, .H 2, .M 1 .Y, .J 2 (1/7), .M 2 .Z] :=
  ⟨_, ⟨3, _, Circuit.extend_ok_iff.2 ⟨by simp [Circuit.listOk, Circuit.instrOk, Instr.after, Circuit.new], rfl⟩⟩, rfl⟩

end Graphix
