import Verif.Props.Pexp
import Verif.Proofs.Transpile
import Mathlib.LinearAlgebra.Matrix.SemiringInverse
import Mathlib.Tactic.Module

/-! A linear map is given, up to a scalar, by the images of the generators `X_q` and `Z_q`. -/

namespace Graphix

open Function

/-- A bijection of the states, that keeps the states of the qubits `0, …, n - 1`. -/
def Bij (n : ℕ) (F : QState → QState) : Prop :=
  ∃ G : QState → QState, (∀ ψ, G (F ψ) = ψ) ∧ (∀ ψ, F (G ψ) = ψ) ∧ (∀ ψ, OnNodes (List.range n) ψ → OnNodes (List.range n) (F ψ)) ∧
    ∀ ψ, OnNodes (List.range n) ψ → OnNodes (List.range n) (G ψ)

theorem Bij.id (n : ℕ) : Bij n fun ψ => ψ := ⟨fun ψ => ψ, fun _ => rfl, fun _ => rfl, fun _ h => h, fun _ h => h⟩

theorem Bij.comp {n : ℕ} {F F' : QState → QState} (h : Bij n F) (h' : Bij n F') : Bij n fun ψ => F' (F ψ) := by
  obtain ⟨G, a1, a2, a3, a4⟩ := h
  obtain ⟨G', b1, b2, b3, b4⟩ := h'
  exact ⟨fun ψ => G (G' ψ), fun ψ => by simp only [b1, a1], fun ψ => by simp only [a2, b2], fun ψ h => b3 _ (a3 _ h), fun ψ h => a4 _ (b4 _ h)⟩

theorem Bij.op1 {n t : ℕ} (ht : t < n) {U V : Mat2} (h : V * U = 1) : Bij n (Graphix.op1 U t) := by
  refine ⟨Graphix.op1 V t, fun ψ => ?_, fun ψ => ?_, fun ψ hψ => hψ.op1 ht U, fun ψ hψ => hψ.op1 ht V⟩
  · rw [op1_mul, h, op1_one]
  · rw [op1_mul, mul_eq_one_comm.1 h, op1_one]

theorem Bij.reindex {n : ℕ} (σ : Basis → Basis) (hσ : ∀ b, σ (σ b) = b) (hn : ∀ b b', (∀ k ∈ List.range n, b k = b' k) → ∀ k ∈ List.range n, σ b k = σ b' k) :
    Bij n fun ψ b => ψ (σ b) :=
  ⟨fun ψ b => ψ (σ b), fun ψ => by funext b; simp only [hσ], fun ψ => by funext b; simp only [hσ],
    fun ψ hψ b b' h => hψ _ _ (hn b b' h), fun ψ hψ b b' h => hψ _ _ (hn b b' h)⟩

theorem Bij.diag {n : ℕ} (g g' : Basis → ℂ) (hg : ∀ b, g' b * g b = 1) (hn : ∀ b b', (∀ k ∈ List.range n, b k = b' k) → g b = g b' ∧ g' b = g' b') :
    Bij n fun ψ b => g b * ψ b := by
  refine ⟨fun ψ b => g' b * ψ b, fun ψ => ?_, fun ψ => ?_, fun ψ hψ b b' h => ?_, fun ψ hψ b b' h => ?_⟩
  · funext b
    show g' b * (g b * ψ b) = _
    rw [← mul_assoc, hg, one_mul]
  · funext b
    show g b * (g' b * ψ b) = _
    rw [← mul_assoc, mul_comm (g b), hg, one_mul]
  · show g b * ψ b = g b' * ψ b'
    rw [(hn b b' h).1, hψ b b' h]
  · show g' b * ψ b = g' b' * ψ b'
    rw [(hn b b' h).2, hψ b b' h]

theorem rot_inv {P : Mat2} (hP : P * P = 1) (θ : ℝ) : rot P (-θ) * rot P θ = 1 := by
  unfold rot
  have e : -θ * Real.pi / 2 = -(θ * Real.pi / 2) := by ring
  rw [e, Real.cos_neg, Real.sin_neg]
  have h : (Real.cos (θ * Real.pi / 2) : ℂ) ^ 2 + (Real.sin (θ * Real.pi / 2) : ℂ) ^ 2 = 1 := by
    exact_mod_cast Real.cos_sq_add_sin_sq (θ * Real.pi / 2)
  generalize (Real.cos (θ * Real.pi / 2)) = c at h ⊢
  generalize (Real.sin (θ * Real.pi / 2)) = s at h ⊢
  simp only [Matrix.sub_mul, Matrix.mul_sub, Matrix.smul_mul, Matrix.mul_smul, hP, Matrix.mul_one, Matrix.one_mul]
  have hI := Complex.I_mul_I
  push_cast
  linear_combination (norm := module) h • (1 : Mat2) + ((-(s : ℂ) * s) * hI) • (1 : Mat2)

theorem X_sq : Ops.X * Ops.X = 1 := by unfold Ops.X; rw [mat2_mul]; apply mat2_ext <;> simp
theorem Y_sq : Ops.Y * Ops.Y = 1 := by unfold Ops.Y; rw [mat2_mul]; apply mat2_ext <;> simp
theorem Z_sq : Ops.Z * Ops.Z = 1 := by unfold Ops.Z; rw [mat2_mul]; apply mat2_ext <;> simp

theorem diag_inv (x y : ℂ) (h : y * x = 1) : mat2 1 0 0 y * mat2 1 0 0 x = 1 := by
  rw [mat2_mul]; apply mat2_ext <;> simp [h]

theorem Instr.gate_bij {n : ℕ} {i : Instr} (hok : Circuit.instrOk (Finset.range n) i = true) : Bij n i.gate := by
  have hup : ∀ (b b' : Basis) (t : ℕ) (x x' : Bool), (∀ k ∈ List.range n, b k = b' k) → x = x' → ∀ k ∈ List.range n, update b t x k = update b' t x' k := by
    rintro b b' t x _ h rfl k hk
    by_cases e : k = t
    · subst e; simp
    · simp [e, h k hk]
  have exp_inv : ∀ x : ℝ, Complex.exp (Complex.I * ((-x : ℝ) : ℂ)) * Complex.exp (Complex.I * (x : ℂ)) = 1 := by
    intro x
    rw [← Complex.exp_add]
    push_cast
    rw [show Complex.I * -(x : ℂ) + Complex.I * x = 0 by ring, Complex.exp_zero]
  cases i with
  | CCX c0 c1 t =>
    simp only [Circuit.instrOk, Finset.mem_range, decide_eq_true_eq] at hok
    obtain ⟨h1, h2, h3, h4, h5, h6⟩ := hok
    refine Bij.reindex (fun b => update b t (Bool.xor (b t) (b c0 && b c1))) (fun b => ?_) fun b b' h => ?_
    · funext k
      by_cases e : k = t
      · subst e; simp [h5, h6]
      · simp [e]
    · exact hup b b' t _ _ h (by rw [h t (by simpa), h c0 (by simpa), h c1 (by simpa)])
  | RZZ c t θ =>
    simp only [Circuit.instrOk, Finset.mem_range, decide_eq_true_eq] at hok
    refine Bij.diag _ (fun b => Complex.exp (Complex.I * ((-(if b c = b t then -(θ * Real.pi / 2) else θ * Real.pi / 2) : ℝ) : ℂ))) (fun b => exp_inv _) fun b b' h => ?_
    rw [h c (by simpa using hok.1), h t (by simpa using hok.2)]
    exact ⟨rfl, rfl⟩
  | CNOT c t =>
    simp only [Circuit.instrOk, Finset.mem_range, decide_eq_true_eq] at hok
    obtain ⟨h1, h2, h3⟩ := hok
    refine Bij.reindex (fun b => update b t (Bool.xor (b t) (b c))) (fun b => ?_) fun b b' h => ?_
    · funext k
      by_cases e : k = t
      · subst e; simp [h3]
      · simp [e]
    · exact hup b b' t _ _ h (by rw [h t (by simpa), h c (by simpa)])
  | SWAP u v =>
    simp only [Circuit.instrOk, Finset.mem_range, decide_eq_true_eq] at hok
    obtain ⟨h1, h2, h3⟩ := hok
    refine Bij.reindex (fun b => b ∘ Equiv.swap u v) (fun b => ?_) fun b b' h k hk => ?_
    · funext k; simp
    · show b (Equiv.swap u v k) = b' (Equiv.swap u v k)
      apply h
      rw [Equiv.swap_apply_def]
      split
      · simpa
      · split
        · simpa
        · exact hk
  | CZ u v =>
    simp only [Circuit.instrOk, Finset.mem_range, decide_eq_true_eq] at hok
    obtain ⟨h1, h2, h3⟩ := hok
    refine ⟨cz u v, fun ψ => ?_, fun ψ => ?_, fun ψ hψ => hψ.cz h1 h2, fun ψ hψ => hψ.cz h1 h2⟩ <;>
    · funext b
      simp only [Instr.gate, cz]
      split <;> simp
  | H t => exact Bij.op1 (by simpa [Circuit.instrOk] using hok) H_unitary
  | S t =>
    refine Bij.op1 (V := mat2 1 0 0 (-Complex.I)) (by simpa [Circuit.instrOk] using hok) ?_
    unfold Ops.S
    exact diag_inv _ _ (by simp)
  | X t => exact Bij.op1 (by simpa [Circuit.instrOk] using hok) X_sq
  | Y t => exact Bij.op1 (by simpa [Circuit.instrOk] using hok) Y_sq
  | Z t => exact Bij.op1 (by simpa [Circuit.instrOk] using hok) Z_sq
  | I t => exact Bij.id n
  | M t a => exact Bij.id n
  | RX t θ => exact Bij.op1 (by simpa [Circuit.instrOk] using hok) (rot_inv X_sq θ)
  | RY t θ => exact Bij.op1 (by simpa [Circuit.instrOk] using hok) (rot_inv Y_sq θ)
  | RZ t θ => exact Bij.op1 (by simpa [Circuit.instrOk] using hok) (rot_inv Z_sq θ)
  | J t θ =>
    refine Bij.op1 (V := mat2 1 0 0 (Complex.exp (Complex.I * ((-(θ * Real.pi) : ℝ) : ℂ))) * Ops.H.conjTranspose) (by simpa [Circuit.instrOk] using hok) ?_
    unfold jGate
    rw [Matrix.mul_assoc, ← Matrix.mul_assoc Ops.H.conjTranspose, H_unitary, Matrix.one_mul]
    exact diag_inv _ _ (exp_inv _)

theorem gates_bij {n : ℕ} (l : List Instr) (h : ∀ i ∈ l, Circuit.instrOk (Finset.range n) i = true) : Bij n (gates l) := by
  induction l with
  | nil => exact Bij.id n
  | cons i l ih => exact (Instr.gate_bij (h i (by simp))).comp (ih fun j hj => h j (by simp [hj]))

theorem Instr.gate_add (i : Instr) (ψ φ : QState) : i.gate (ψ + φ) = i.gate ψ + i.gate φ := by
  cases i <;> first | exact op1_add _ _ _ _ | rfl | skip
  · funext b; simp [Instr.gate, rzzOp]; ring
  · funext b; simp only [Instr.gate, cz, Pi.add_apply]; split <;> ring

theorem gates_add (l : List Instr) (ψ φ : QState) : gates l (ψ + φ) = gates l ψ + gates l φ := by
  induction l generalizing ψ φ with
  | nil => rfl
  | cons i l ih =>
    show gates l (i.gate (ψ + φ)) = _
    rw [i.gate_add, ih]; rfl

/-! ### Uniqueness -/

theorem mat2_comb (A : Mat2) : ∃ a b c d : ℂ, A = a • (1 : Mat2) + b • Ops.Z + c • Ops.X + d • (Ops.X * Ops.Z) := by
  refine ⟨(A false false + A true true) / 2, (A false false - A true true) / 2, (A false true + A true false) / 2, (A true false - A false true) / 2, ?_⟩
  unfold Ops.Z Ops.X
  rw [mat2_mul]
  apply mat2_ext <;> simp <;> ring

/-- A linear map that commutes with `X_q` and `Z_q` commutes with all the operators on the qubit `q`. -/
theorem comm_op1 {V : QState → QState} (hh : Homog V) (ha : ∀ ψ φ, V (ψ + φ) = V ψ + V φ) {q : ℕ} (hx : ∀ ψ, V (op1 Ops.X q ψ) = op1 Ops.X q (V ψ))
    (hz : ∀ ψ, V (op1 Ops.Z q ψ) = op1 Ops.Z q (V ψ)) (A : Mat2) (ψ : QState) : V (op1 A q ψ) = op1 A q (V ψ) := by
  obtain ⟨a, b, c, d, rfl⟩ := mat2_comb A
  have hh' : ∀ (c : ℂ) ψ, V (c • ψ) = c • V ψ := hh
  simp only [op1_mat_add, op1_mat_smul, ← op1_mul, op1_one, ha, hh', hx, hz]

/-- The matrix `|x⟩⟨y|`. -/
def unitMat (x y : Bool) : Mat2 := fun i j => if i = x ∧ j = y then 1 else 0

theorem op1_unitMat (x y : Bool) (q : ℕ) (ψ : QState) (b : Basis) : op1 (unitMat x y) q ψ b = if b q = x then ψ (update b q y) else 0 := by
  unfold op1 unitMat
  cases x <;> cases y <;> cases h : b q <;> simp

theorem locOps_unitMat (x y : ℕ → Bool) (l : List ℕ) (hl : l.Nodup) (ψ : QState) (b : Basis) :
    locOps (fun q => unitMat (x q) (y q)) l ψ b = if ∀ q ∈ l, b q = x q then ψ (fun q => if q ∈ l then y q else b q) else 0 := by
  induction l generalizing b with
  | nil => simp [locOps]
  | cons a l ih =>
    rw [List.nodup_cons] at hl
    unfold locOps
    rw [op1_unitMat]
    by_cases h : b a = x a
    · rw [if_pos h, ih hl.2]
      have e1 : (∀ q ∈ l, update b a (y a) q = x q) ↔ ∀ q ∈ l, b q = x q :=
        forall₂_congr fun q hq => by rw [update_of_ne (by rintro rfl; exact hl.1 hq)]
      have e2 : (fun q => if q ∈ l then y q else update b a (y a) q) = fun q => if q ∈ a :: l then y q else b q := by
        funext q
        by_cases hq : q ∈ l
        · simp [hq]
        · by_cases hqa : q = a
          · subst hqa; simp [hq]
          · simp [hq, hqa]
      simp only [e1, e2, List.mem_cons, forall_eq_or_imp, h, true_and]
    · rw [if_neg h, if_neg (by simp [h])]

/-- A linear map that commutes with all the `X_q` and `Z_q` is a scalar. -/
theorem scalar_of_comm {n : ℕ} {V : QState → QState} (hh : Homog V) (ha : ∀ ψ φ, V (ψ + φ) = V ψ + V φ)
    (hx : ∀ q < n, ∀ ψ, V (op1 Ops.X q ψ) = op1 Ops.X q (V ψ)) (hz : ∀ q < n, ∀ ψ, V (op1 Ops.Z q ψ) = op1 Ops.Z q (V ψ))
    (hon : ∀ ψ, OnNodes (List.range n) ψ → OnNodes (List.range n) (V ψ)) :
    ∃ c : ℂ, ∀ ψ, OnNodes (List.range n) ψ → V ψ = c • ψ := by
  have hl : ∀ (F : ℕ → Mat2) (ψ : QState), V (locOps F (List.range n) ψ) = locOps F (List.range n) (V ψ) := by
    intro F
    have : ∀ (l : List ℕ), (∀ q ∈ l, q < n) → ∀ ψ, V (locOps F l ψ) = locOps F l (V ψ) := by
      intro l
      induction l with
      | nil => intro _ ψ; rfl
      | cons a l ih =>
        intro h ψ
        unfold locOps
        rw [comm_op1 hh ha (hx a (h a (by simp))) (hz a (h a (by simp))), ih fun q hq => h q (by simp [hq])]
    exact this _ fun q hq => List.mem_range.1 hq
  refine ⟨V (fun _ => 1) (fun _ => false), fun ψ hψ => ?_⟩
  funext b
  -- the projection on the basis state `b`
  have h1 : V ψ b = locOps (fun q => unitMat (b q) (b q)) (List.range n) (V ψ) b := by
    rw [locOps_unitMat _ _ _ List.nodup_range, if_pos (fun _ _ => rfl)]
    congr 1
    funext q
    simp
  have h2 : locOps (fun q => unitMat (b q) (b q)) (List.range n) ψ = ψ b • locOps (fun q => unitMat (b q) false) (List.range n) fun _ => 1 := by
    funext b'
    rw [Pi.smul_apply, locOps_unitMat _ _ _ List.nodup_range, locOps_unitMat _ _ _ List.nodup_range]
    by_cases h : ∀ q ∈ List.range n, b' q = b q
    · rw [if_pos h, if_pos h, smul_eq_mul, mul_one]
      apply hψ
      intro q hq
      simp [hq]
    · rw [if_neg h, if_neg h, smul_zero]
  rw [h1, ← hl, h2, hh, hl, Pi.smul_apply, locOps_unitMat _ _ _ List.nodup_range, if_pos (fun _ _ => rfl), Pi.smul_apply, smul_eq_mul, smul_eq_mul, mul_comm]
  congr 1
  refine hon _ (fun _ _ _ => rfl) _ _ fun q hq => ?_
  simp [hq]

/-- Two linear maps with the same images of the generators, one of them bijective, are equal up to a scalar. -/
theorem unique_of_gen {n : ℕ} {U W : QState → QState} (hU : Bij n U) (hUh : Homog U) (hUa : ∀ ψ φ, U (ψ + φ) = U ψ + U φ)
    (hWh : Homog W) (hWa : ∀ ψ φ, W (ψ + φ) = W ψ + W φ) (hWn : ∀ ψ, OnNodes (List.range n) ψ → OnNodes (List.range n) (W ψ))
    {P Q : ℕ → QState → QState} (hPx : ∀ q < n, ∀ ψ, U (op1 Ops.X q ψ) = P q (U ψ)) (hPz : ∀ q < n, ∀ ψ, U (op1 Ops.Z q ψ) = Q q (U ψ))
    (hWx : ∀ q < n, ∀ ψ, W (op1 Ops.X q ψ) = P q (W ψ)) (hWz : ∀ q < n, ∀ ψ, W (op1 Ops.Z q ψ) = Q q (W ψ)) :
    ∃ c : ℂ, ∀ ψ, OnNodes (List.range n) ψ → W ψ = c • U ψ := by
  obtain ⟨G, g1, g2, g3, g4⟩ := hU
  have hGh : Homog G := fun c ψ => by
    have : U (G (c • ψ)) = U (c • G ψ) := by rw [g2, hUh, g2]
    rw [← g1 (G (c • ψ)), this, g1]
  have hGa : ∀ ψ φ, G (ψ + φ) = G ψ + G φ := fun ψ φ => by
    have : U (G (ψ + φ)) = U (G ψ + G φ) := by rw [g2, hUa, g2, g2]
    rw [← g1 (G (ψ + φ)), this, g1]
  have hG : ∀ {A R : QState → QState}, (∀ ψ, U (A ψ) = R (U ψ)) → ∀ χ, G (R χ) = A (G χ) := by
    intro A R h χ
    rw [← g1 (A (G χ)), h, g2]
  obtain ⟨c, hc⟩ := scalar_of_comm (n := n) (V := fun ψ => G (W ψ)) (fun c ψ => by show G (W (c • ψ)) = c • G (W ψ); rw [hWh, hGh]) (fun ψ φ => by rw [hWa, hGa])
    (fun q hq ψ => by rw [hWx q hq, hG (hPx q hq)]) (fun q hq ψ => by rw [hWz q hq, hG (hPz q hq)]) (fun ψ hψ => g4 _ (hWn _ hψ))
  refine ⟨c, fun ψ hψ => ?_⟩
  rw [← g2 (W ψ), hc ψ hψ, hUh]

end Graphix
