import Verif.Spec.QasmRun
import Verif.Proofs.Runnable
import Verif.Proofs.Signals
import Verif.Props.CircuitBasis

/-! # The text written by the exporter, and the runs of the program -/

namespace Graphix

open Function
open scoped Classical

/-! ### Text -/

/-- `t` is the text of the statements `S`, whatever comes after. -/
def Emits (reg : Bool) (t : List QTok) (S : List QStmt) : Prop :=
  ∀ rest P, QStatements reg rest P → QStatements reg (t ++ rest) (S ++ P)

namespace Emits

theorem nil {reg : Bool} : Emits reg [] [] := fun _ _ h => h

theorem append {reg : Bool} {t t' : List QTok} {S S' : List QStmt} (h : Emits reg t S) (h' : Emits reg t' S') :
    Emits reg (t ++ t') (S ++ S') := by
  intro rest P hP
  rw [List.append_assoc, List.append_assoc]
  exact h _ _ (h' _ _ hP)

theorem stmt {reg : Bool} {t : List QTok} {s : QStmt} (h : ∀ rest, QStatement reg (t ++ rest) s rest) : Emits reg t [s] :=
  fun _ _ hP => .cons (h _) hP

theorem all {reg : Bool} {t : List QTok} {S : List QStmt} (h : Emits reg t S) : QStatements reg t S := by
  have := h [] [] .nil
  simpa using this

end Emits

/-! ### Angles -/

/-- The value of the angle that is written, in units of π. -/
noncomputable def printedAngle (env : QasmEnv) (a : ℝ) : ℝ := if mathIsclose a (env.lim a) then (env.lim a : ℝ) else a

theorem printedAngle_close (env : QasmEnv) (a : ℝ) : mathIsclose a (printedAngle env a) := by
  unfold printedAngle
  split
  · assumption
  · unfold mathIsclose
    simp

theorem qExpr_angle (env : QasmEnv) (a : ℝ) (l : List QTok) :
    qExpr (angleToQasm3 env a ++ .rpar :: l) = some (printedAngle env a * Real.pi, .rpar :: l) := by
  unfold angleToQasm3 printedAngle
  by_cases h : mathIsclose a (env.lim a)
  · simp only [h, not_true_eq_false, if_false, if_true]
    generalize env.lim a = f
    have hf : (f : ℝ) = (f.num : ℝ) / (f.den : ℝ) := Rat.cast_def f
    have hsgn : (f.num : ℝ) = if f.num < 0 then -(f.num.natAbs : ℝ) else (f.num.natAbs : ℝ) := by
      split
      · rename_i h1
        have : (f.num : ℤ) = -(f.num.natAbs : ℤ) := by omega
        have h2 : ((f.num : ℤ) : ℝ) = ((-(f.num.natAbs : ℤ) : ℤ) : ℝ) := by rw [← this]
        rw [h2, Int.cast_neg, Int.cast_natCast]
      · rename_i h1
        have : (f.num : ℤ) = (f.num.natAbs : ℤ) := by omega
        have h2 : ((f.num : ℤ) : ℝ) = ((f.num.natAbs : ℤ) : ℝ) := by rw [← this]
        rw [h2, Int.cast_natCast]
    rw [hf, hsgn]
    generalize f.num.natAbs = k at *
    by_cases hd : f.den = 1
    · simp only [hd, if_true]
      match k with
      | 0 => simp [qExpr, qAtom, qProd]
      | 1 => by_cases hn : f.num < 0 <;> simp [hn, qExpr, qAtom, qProd]
      | k + 2 => by_cases hn : f.num < 0 <;> simp [hn, qExpr, qAtom, qProd] <;> ring
    · simp only [hd, if_false]
      by_cases hk : k = 1
      · by_cases hn : f.num < 0 <;> simp [hn, hk, qExpr, qAtom, qProd] <;> ring
      · by_cases hn : f.num < 0 <;> simp [hn, hk, qExpr, qAtom, qProd] <;> ring
  · simp only [h, not_false_eq_true, if_true, if_false]
    unfold floatToks
    split <;> simp [qExpr, qAtom, qProd]

/-! ### Runs -/

theorem run_append (o : ℕ → Bool) (S S' : List QStmt) : ∀ m : QMach, m.run o (S ++ S') = (m.run o S).bind fun m => m.run o S' := by
  induction S with
  | nil => intro m; rfl
  | cons s S ih =>
    intro m
    simp only [List.cons_append, QMach.run]
    cases m.step o s with
    | none => rfl
    | some m' => simp [ih]

theorem run_append_some {o : ℕ → Bool} {S S' : List QStmt} {m m' m'' : QMach} (h : m.run o S = some m') (h' : m'.run o S' = some m'') :
    m.run o (S ++ S') = some m'' := by
  rw [run_append, h]; exact h'

theorem run_one {o : ℕ → Bool} {s : QStmt} {m m' : QMach} (h : m.step o s = some m') : m.run o [s] = some m' := by
  simp [QMach.run, h]

/-- A gate on one qubit. -/
theorem call_one {g : String} {arg : Option ℝ} {n : ℕ} {U : Mat2} {m : QMach} (h : stdGate ⟨g, arg, [n]⟩ = some (op1 U n)) (hn : n ∈ m.qubits) :
    m.call ⟨g, arg, [n]⟩ = some { m with state := op1 U n m.state } := by
  simp [QMach.call, hn, h]

theorem stdGate_h (n : ℕ) : stdGate ⟨"h", none, [n]⟩ = some (op1 Ops.H n) := by simp [stdGate, qasm3Gate]
theorem stdGate_x (n : ℕ) : stdGate ⟨"x", none, [n]⟩ = some (op1 Ops.X n) := by simp [stdGate, qasm3Gate]
theorem stdGate_z (n : ℕ) : stdGate ⟨"z", none, [n]⟩ = some (op1 Ops.Z n) := by simp [stdGate, qasm3Gate]
theorem stdGate_rx (θ : ℝ) (n : ℕ) : stdGate ⟨"rx", some (θ * Real.pi), [n]⟩ = some (op1 (rot Ops.X θ) n) := rfl
theorem stdGate_ry (θ : ℝ) (n : ℕ) : stdGate ⟨"ry", some (θ * Real.pi), [n]⟩ = some (op1 (rot Ops.Y θ) n) := rfl
theorem stdGate_rz (θ : ℝ) (n : ℕ) : stdGate ⟨"rz", some (θ * Real.pi), [n]⟩ = some (op1 (rot Ops.Z θ) n) := rfl
theorem stdGate_cz (u v : ℕ) : stdGate ⟨"cz", none, [u, v]⟩ = some (cz u v) := rfl

theorem stdGate_clifford {g : String} {U : Mat2} (h : qasm3Gate g = some U) (n : ℕ) : stdGate ⟨g, none, [n]⟩ = some (op1 U n) := by
  simp [stdGate, h]

/-! ### Classical control -/

theorem parity_insert_xor (r : ℕ → Bool) {n : ℕ} {s : Finset ℕ} (h : n ∉ s) : parity r (insert n s) = Bool.xor (r n) (parity r s) := by
  have e : insert n s = symmDiff {n} s := by
    ext x
    simp only [Finset.mem_insert, Finset.mem_symmDiff, Finset.mem_singleton]
    constructor
    · rintro (rfl | hx)
      · exact Or.inl ⟨rfl, h⟩
      · exact Or.inr ⟨hx, fun he => h (he ▸ hx)⟩
    · rintro (⟨rfl, _⟩ | ⟨hx, _⟩)
      · exact Or.inl rfl
      · exact Or.inr hx
  rw [e, parity_symmDiff, parity_singleton]

theorem xor_parity {m : QMach} {r : ℕ → Bool} : ∀ l : List ℕ, l.Nodup → (∀ n ∈ l, n ∈ m.bits ∧ m.val n = some (r n)) →
    m.xor l = some (parity r l.toFinset) := by
  intro l
  induction l with
  | nil => intro _ _; simp [QMach.xor, parity_empty]
  | cons n l ih =>
    intro hnd h
    rw [List.nodup_cons] at hnd
    have hn := h n (by simp)
    simp only [QMach.xor, hn.1, hn.2, if_true, Option.bind_some, ih hnd.2 fun k hk => h k (by simp [hk]), Option.map_some, List.toFinset_cons]
    rw [parity_insert_xor r (by simpa using hnd.1)]

theorem qXor_join {l : List ℕ} (hl : l ≠ []) (rest : List QTok) : QXor false (xorJoin l ++ .rpar :: rest) l rest := by
  induction l with
  | nil => exact absurd rfl hl
  | cons n l ih =>
    cases l with
    | nil => exact .one rfl
    | cons k l => exact .more rfl (ih (by simp))

/-- The statements of a controlled command. -/
def domainStmts (env : QasmEnv) (d : Finset ℕ) (g : String) (n : ℕ) : List QStmt :=
  if env.ord d = [] then [] else [.cond (env.ord d) ⟨g, none, [n]⟩]

theorem xorJoin_isEmpty (l : List ℕ) : (xorJoin l).isEmpty = decide (l = []) := by
  match l with
  | [] => rfl
  | [n] => rfl
  | n :: k :: l => simp [xorJoin]

theorem emits_domain (env : QasmEnv) (d : Finset ℕ) (g : String) (n : ℕ) :
    Emits false (domainToQasm3 env d g n) (domainStmts env d g n) := by
  unfold domainToQasm3 domainStmts
  simp only [xorJoin_isEmpty, decide_eq_true_eq]
  split
  · exact Emits.nil
  · rename_i h
    refine Emits.stmt fun rest => ?_
    simp only [List.cons_append, List.nil_append, List.append_assoc]
    exact .cond (qXor_join h _) (.plain (.one rfl))

theorem run_domain {env : QasmEnv} (henv : env.Valid) {m : QMach} {r : ℕ → Bool} {d : Finset ℕ} {g : String} {U : Mat2} {n : ℕ} (o : ℕ → Bool)
    (hU : stdGate ⟨g, none, [n]⟩ = some (op1 U n)) (hn : n ∈ m.qubits) (h : ∀ k ∈ d, k ∈ m.bits ∧ m.val k = some (r k)) :
    m.run o (domainStmts env d g n) = some { m with state := op1 (powB U (parity r d)) n m.state } := by
  unfold domainStmts
  have hd := (henv d).2
  split
  · rename_i h0
    rw [h0] at hd
    simp only [List.toFinset_nil] at hd
    rw [← hd, parity_empty]
    simp [QMach.run, powB, op1_one]
  · apply run_one
    have hx : m.xor (env.ord d) = some (parity r d) := by
      rw [xor_parity (r := r) _ (henv d).1, hd]
      intro k hk
      exact h k (by rw [← hd]; simpa using hk)
    simp only [QMach.step, hx, Option.bind_some]
    cases parity r d with
    | true => simp only [if_true, powB]; exact call_one hU hn
    | false => simp [powB, op1_one]

/-! ### The outcomes -/

theorem withOutcomes_nil (r : ℕ → Bool) (φ : QState) : withOutcomes r [] φ = φ := by funext b; simp [withOutcomes]

theorem withOutcomes_snoc (r : ℕ → Bool) (l : List ℕ) (n : ℕ) (φ : QState) :
    withOutcomes r (l ++ [n]) φ = prep n (basisKet (r n)) (withOutcomes r l φ) := by
  funext b
  simp only [withOutcomes, prep, basisKet, List.mem_append, List.mem_singleton]
  by_cases h : ∀ k ∈ l, b k = r k
  · rw [if_pos h]
    by_cases hn : b n = r n
    · rw [if_pos, if_pos hn, one_mul]
      rintro k (hk | rfl)
      · exact h k hk
      · exact hn
    · rw [if_neg, if_neg hn, zero_mul]
      intro h'
      exact hn (h' n (Or.inr rfl))
  · rw [if_neg h, mul_zero, if_neg]
    intro h'
    exact h fun k hk => h' k (Or.inl hk)

theorem withOutcomes_op1 (r : ℕ → Bool) {l : List ℕ} {n : ℕ} (h : n ∉ l) (U : Mat2) (φ : QState) :
    op1 U n (withOutcomes r l φ) = withOutcomes r l (op1 U n φ) := by
  funext b
  have e : ∀ x, (∀ k ∈ l, update b n x k = r k) ↔ ∀ k ∈ l, b k = r k := by
    intro x
    refine forall₂_congr fun k hk => ?_
    rw [update_of_ne]
    rintro rfl
    exact h hk
  simp only [withOutcomes, op1, e]
  split <;> simp

theorem withOutcomes_prep (r : ℕ → Bool) (l : List ℕ) (n : ℕ) (v : Bool → ℂ) (φ : QState) :
    prep n v (withOutcomes r l φ) = withOutcomes r l (prep n v φ) := by
  funext b
  simp only [withOutcomes, prep]
  split <;> simp

theorem withOutcomes_cz (r : ℕ → Bool) (l : List ℕ) (u v : ℕ) (φ : QState) :
    cz u v (withOutcomes r l φ) = withOutcomes r l (cz u v φ) := by
  funext b
  simp only [withOutcomes, cz]
  split <;> simp

theorem withOutcomes_smul (r : ℕ → Bool) (l : List ℕ) (c : ℂ) (φ : QState) : withOutcomes r l (c • φ) = c • withOutcomes r l φ := by
  funext b
  simp only [withOutcomes, Pi.smul_apply, smul_eq_mul]
  split <;> simp

/-! ### Measurements -/

theorem bra_basisKet (x : Bool) : MatPhaseEq (bra (basisKet x)) (bra (measVec (.pauli ⟨.Z, .plus⟩) x)) := by
  cases x
  · refine MatPhaseEq.of_eq ?_
    funext i j
    cases j <;> simp [bra, basisKet, measVec, Measurement.toBloch, PauliMeasurement.toBloch, planarState]
  · refine ⟨Complex.I, by simp, ?_⟩
    funext i j
    cases j <;> simp [bra, basisKet, measVec, Measurement.toBloch, PauliMeasurement.toBloch, planarState]

theorem rot_zero (P : Mat2) : rot P 0 = 1 := by simp [rot]

theorem sincos_sq (a : ℝ) : (Real.cos (a * Real.pi / 2) : ℂ) * Real.cos (a * Real.pi / 2) + Real.sin (a * Real.pi / 2) * Real.sin (a * Real.pi / 2) = 1 := by
  have := Real.cos_sq_add_sin_sq (a * Real.pi / 2)
  rw [pow_two, pow_two] at this
  exact_mod_cast this

theorem cos_double (a : ℝ) : (Real.cos (a * Real.pi) : ℂ) =
    (Real.cos (a * Real.pi / 2) : ℂ) * Real.cos (a * Real.pi / 2) - Real.sin (a * Real.pi / 2) * Real.sin (a * Real.pi / 2) := by
  have := Real.cos_two_mul' (a * Real.pi / 2)
  rw [show 2 * (a * Real.pi / 2) = a * Real.pi by ring, pow_two, pow_two] at this
  exact_mod_cast this

theorem sin_double (a : ℝ) : (Real.sin (a * Real.pi) : ℂ) = 2 * Real.sin (a * Real.pi / 2) * Real.cos (a * Real.pi / 2) := by
  have := Real.sin_two_mul (a * Real.pi / 2)
  rw [show 2 * (a * Real.pi / 2) = a * Real.pi by ring] at this
  exact_mod_cast this

theorem rotX_neg_eq (a : ℝ) : rot Ops.X (-a) = mat2 (Real.cos (a * Real.pi / 2) : ℝ) (Complex.I * (Real.sin (a * Real.pi / 2) : ℝ))
    (Complex.I * (Real.sin (a * Real.pi / 2) : ℝ)) (Real.cos (a * Real.pi / 2) : ℝ) := by
  have e : -a * Real.pi / 2 = -(a * Real.pi / 2) := by ring
  unfold rot
  rw [e, Real.cos_neg, Real.sin_neg]
  generalize Real.cos (a * Real.pi / 2) = c
  generalize Real.sin (a * Real.pi / 2) = s
  apply mat2_ext <;> simp [Ops.X]

theorem rotX_pos_eq (a : ℝ) : rot Ops.X a = mat2 (Real.cos (a * Real.pi / 2) : ℝ) (-(Complex.I * (Real.sin (a * Real.pi / 2) : ℝ)))
    (-(Complex.I * (Real.sin (a * Real.pi / 2) : ℝ))) (Real.cos (a * Real.pi / 2) : ℝ) := by
  unfold rot
  generalize Real.cos (a * Real.pi / 2) = c
  generalize Real.sin (a * Real.pi / 2) = s
  apply mat2_ext <;> simp [Ops.X]

theorem rotY_neg_eq (a : ℝ) : rot Ops.Y (-a) = mat2 (Real.cos (a * Real.pi / 2) : ℝ) (Real.sin (a * Real.pi / 2) : ℝ)
    (-(Real.sin (a * Real.pi / 2) : ℝ)) (Real.cos (a * Real.pi / 2) : ℝ) := by
  have e : -a * Real.pi / 2 = -(a * Real.pi / 2) := by ring
  have hI := Complex.I_mul_I
  unfold rot
  rw [e, Real.cos_neg, Real.sin_neg]
  generalize Real.cos (a * Real.pi / 2) = c
  generalize Real.sin (a * Real.pi / 2) = s
  apply mat2_ext <;> simp [Ops.Y]
  · linear_combination -(s : ℂ) * hI
  · linear_combination (s : ℂ) * hI

theorem bra_rot_YZ (a : ℝ) (x : Bool) :
    MatPhaseEq (bra (basisKet x) * rot Ops.X a) (bra (measVec (.bloch ⟨a, .YZ⟩) x)) := by
  have h := sincos_sq a
  have hI := Complex.I_mul_I
  refine ((bra_basisKet x).mul (MatPhaseEq.refl _)).trans (bra_of_conj ?_ ?_ x)
  · rw [rotX_pos_eq, mat2_conjTranspose, mat2_mul, mat2_one]
    generalize Real.cos (a * Real.pi / 2) = c at *
    generalize Real.sin (a * Real.pi / 2) = s at *
    apply mat2_ext <;> simp
    · linear_combination h - (s : ℂ) * s * hI
    · ring
    · ring
    · linear_combination h - (s : ℂ) * s * hI
  · rw [observable_pauli_plus, rotX_pos_eq]
    simp only [observable, planeObservable, Plane.cos, Plane.sin, Ops.fromAxis, mat2_conjTranspose, Ops.Z, Ops.X, Ops.Y, mat2_mul, mat2_smul, mat2_add, cos_double, sin_double]
    generalize Real.cos (a * Real.pi / 2) = c at *
    generalize Real.sin (a * Real.pi / 2) = s at *
    apply mat2_ext <;> simp
    · linear_combination (s : ℂ) * s * hI
    · ring
    · ring
    · linear_combination -(s : ℂ) * s * hI

theorem bra_rot_XZ (a : ℝ) (x : Bool) :
    MatPhaseEq (bra (basisKet x) * rot Ops.Y (-a)) (bra (measVec (.bloch ⟨a, .XZ⟩) x)) := by
  have h := sincos_sq a
  refine ((bra_basisKet x).mul (MatPhaseEq.refl _)).trans (bra_of_conj ?_ ?_ x)
  · rw [rotY_neg_eq, mat2_conjTranspose, mat2_mul, mat2_one]
    generalize Real.cos (a * Real.pi / 2) = c at *
    generalize Real.sin (a * Real.pi / 2) = s at *
    apply mat2_ext <;> simp
    · linear_combination h
    · ring
    · ring
    · linear_combination h
  · rw [observable_pauli_plus, rotY_neg_eq]
    simp only [observable, planeObservable, Plane.cos, Plane.sin, Ops.fromAxis, mat2_conjTranspose, Ops.Z, Ops.X, Ops.Y, mat2_mul, mat2_smul, mat2_add, cos_double, sin_double]
    generalize Real.cos (a * Real.pi / 2) = c at *
    generalize Real.sin (a * Real.pi / 2) = s at *
    apply mat2_ext <;> simp
    · ring
    · ring
    · ring
    · ring

theorem bra_rot_XY (a : ℝ) (x : Bool) :
    MatPhaseEq (bra (basisKet x) * (rot Ops.X (-a) * Ops.H)) (bra (measVec (.bloch ⟨a, .XY⟩) x)) := by
  have h := sincos_sq a
  have hI := Complex.I_mul_I
  have h2 := sqrt2_inv_mul
  refine ((bra_basisKet x).mul (MatPhaseEq.refl _)).trans (bra_of_conj ?_ ?_ x)
  · rw [Matrix.conjTranspose_mul, Matrix.mul_assoc, ← Matrix.mul_assoc (rot Ops.X (-a)).conjTranspose]
    have e : (rot Ops.X (-a)).conjTranspose * rot Ops.X (-a) = 1 := by
      rw [rotX_neg_eq, mat2_conjTranspose, mat2_mul, mat2_one]
      generalize Real.cos (a * Real.pi / 2) = c at *
      generalize Real.sin (a * Real.pi / 2) = s at *
      apply mat2_ext <;> simp
      · linear_combination h - (s : ℂ) * s * hI
      · ring
      · ring
      · linear_combination h - (s : ℂ) * s * hI
    rw [e, Matrix.one_mul, H_unitary]
  · rw [observable_pauli_plus, rotX_neg_eq, Matrix.conjTranspose_mul]
    simp only [observable, planeObservable, Plane.cos, Plane.sin, Ops.fromAxis, mat2_conjTranspose, Ops.Z, Ops.X, Ops.Y, Ops.H, mat2_mul, mat2_smul, mat2_add, cos_double, sin_double]
    generalize Real.cos (a * Real.pi / 2) = c at *
    generalize Real.sin (a * Real.pi / 2) = s at *
    have h3 : (Real.sqrt 2 : ℂ)⁻¹ * (Real.sqrt 2 : ℂ)⁻¹ = 1 / 2 := by simpa using h2
    apply mat2_ext <;> simp
    all_goals generalize ((Real.sqrt 2 : ℂ))⁻¹ = q at *
    · ring
    · linear_combination (2 * (c : ℂ) * c + 2 * s * s * Complex.I * Complex.I - 4 * c * s * Complex.I) * h3 + (s : ℂ) * s * hI
    · linear_combination (2 * (c : ℂ) * c + 2 * s * s * Complex.I * Complex.I + 4 * c * s * Complex.I) * h3 + (s : ℂ) * s * hI
    · ring

end Graphix
