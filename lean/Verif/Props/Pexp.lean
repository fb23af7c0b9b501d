import Verif.Props.Berg

/-!
# C49: the ladder synthesis of Pauli exponentials
-/

namespace Graphix

open Function

namespace Pexp

theorem extend_append (c : Circuit) (l l' : List Instr) : c.extend (l ++ l') = (c.extend l >>= fun c => c.extend l') := by
  induction l generalizing c with
  | nil => rfl
  | cons i l ih =>
    show (c.add i >>= fun c => c.extend (l ++ l')) = ((c.add i >>= fun c => c.extend l) >>= fun c => c.extend l')
    cases c.add i with
    | error e => rfl
    | ok c => exact ih c

theorem extend_single (c : Circuit) (i : Instr) : c.extend [i] = c.add i := by
  show (c.add i >>= fun c => .ok c) = c.add i
  cases c.add i <;> rfl

/-- The instructions of the basis change. -/
noncomputable def bcL (p : PauliString) (q : ℕ) : List Instr :=
  match p.axes.get? q with
  | some .X => [.H q]
  | some .Y => [.RZ q (1 / 2), .RY q (1 / 2), .RZ q (1 / 2)]
  | _ => []

theorem basisChange_ok {p : PauliString} {q : ℕ} (h : (p.axes.get? q).isSome) : basisChange p q = .ok (bcL p q) := by
  unfold basisChange bcL
  cases e : p.axes.get? q with
  | none => simp [e] at h
  | some a => cases a <;> rfl

noncomputable def downL (p : PauliString) (l : List (ℕ × ℕ)) : List Instr := l.flatMap fun x => bcL p x.2 ++ [.CNOT x.1 x.2]
noncomputable def upL (p : PauliString) (l : List (ℕ × ℕ)) : List Instr := l.flatMap fun x => .CNOT x.2 x.1 :: bcL p x.1

theorem ladderDown_eq {p : PauliString} (l : List (ℕ × ℕ)) (h : ∀ x ∈ l, (p.axes.get? x.2).isSome) (c : Circuit) :
    ladderDown p l c = c.extend (downL p l) := by
  induction l generalizing c with
  | nil => rfl
  | cons x l ih =>
    obtain ⟨q1, q2⟩ := x
    unfold ladderDown downL
    rw [basisChange_ok (h (q1, q2) (by simp)), List.flatMap_cons, List.append_assoc, extend_append]
    show (c.extend (bcL p q2) >>= fun c => c.add (.CNOT q1 q2) >>= fun c => ladderDown p l c) = _
    congr 1
    funext c
    rw [extend_append, extend_single]
    congr 1
    funext c
    exact ih (fun y hy => h y (by simp [hy])) c

theorem ladderUp_eq {p : PauliString} (l : List (ℕ × ℕ)) (h : ∀ x ∈ l, (p.axes.get? x.1).isSome) (c : Circuit) :
    ladderUp p l c = c.extend (upL p l) := by
  induction l generalizing c with
  | nil => rfl
  | cons x l ih =>
    obtain ⟨q2, q1⟩ := x
    unfold ladderUp upL
    rw [basisChange_ok (h (q2, q1) (by simp)), List.flatMap_cons, List.cons_append]
    show (c.add (.CNOT q1 q2) >>= fun c => c.extend (bcL p q2) >>= fun c => ladderUp p l c) =
      (c.add (.CNOT q1 q2) >>= fun c => c.extend (bcL p q2 ++ _))
    congr 1
    funext c
    rw [extend_append]
    congr 1
    funext c
    exact ih (fun y hy => h y (by simp [hy])) c

/-- The ladder, recursively. -/
noncomputable def ladL (p : PauliString) (θ : ℝ) : ℕ → List ℕ → List Instr
  | q, [] => [.RZ q θ]
  | q, q' :: r => bcL p q' ++ [.CNOT q q'] ++ ladL p θ q' r ++ (.CNOT q q' :: bcL p q')

theorem pairwise_append (l : List ℕ) (a b : ℕ) : pairwise (l ++ [a, b]) = pairwise (l ++ [a]) ++ [(a, b)] := by
  fun_induction pairwise l with
  | case1 x y l ih => simp only [List.cons_append] at ih ⊢; simp [pairwise, ih]
  | case2 l h =>
    match l, h with
    | [], _ => rfl
    | [x], _ => rfl
    | x :: y :: l, h => exact (h x y l rfl).elim

theorem ladL_eq (p : PauliString) (θ : ℝ) (q : ℕ) (r : List ℕ) :
    downL p (pairwise (q :: r)) ++ [.RZ ((q :: r).getLastD 0) θ] ++ upL p (pairwise (q :: r).reverse) = ladL p θ q r := by
  induction r generalizing q with
  | nil => rfl
  | cons q' r ih =>
    unfold ladL
    rw [← ih q']
    have h1 : pairwise (q :: q' :: r) = (q, q') :: pairwise (q' :: r) := rfl
    have h2 : (q :: q' :: r).reverse = r.reverse ++ [q', q] := by simp
    have h3 : (q' :: r).reverse = r.reverse ++ [q'] := by simp
    rw [h1, h2, pairwise_append, h3]
    have h4 : (q :: q' :: r).getLastD 0 = (q' :: r).getLastD 0 := by simp [List.getLastD_cons]
    rw [h4]
    simp [downL, upL, List.flatMap_append]

/-! ### Semantics -/

/-- The matrix of the basis change. -/
noncomputable def bm (p : PauliString) (q : ℕ) : Mat2 :=
  match p.axes.get? q with
  | some .X => Ops.H
  | some .Y => ((Real.sqrt 2 : ℂ) / 2) • mat2 (-Complex.I) (-1) 1 Complex.I
  | _ => 1

theorem ph_quarter : ph (1/4) * ph (1/4) = Complex.I := by rw [← ph_add, ← ph_half]; norm_num
theorem ph_quarter' : ph (-(1/4)) * ph (-(1/4)) = -Complex.I := by
  rw [← ph_add, show (-(1/4) + -(1/4) : ℝ) = -(1/2) by norm_num, ph_neg, ph_half, Complex.inv_I]

theorem hy_mat : rot Ops.Z (1/2) * (rot Ops.Y (1/2) * rot Ops.Z (1/2)) = ((Real.sqrt 2 : ℂ) / 2) • mat2 (-Complex.I) (-1) 1 Complex.I := by
  have hY : rot Ops.Y (1/2) = ((Real.sqrt 2 : ℂ) / 2) • mat2 1 (-1) 1 1 := by
    unfold rot
    rw [cos_quarter, sin_quarter]
    apply mat2_ext <;> simp [Ops.Y, Matrix.smul_apply, mat2_one] <;> ring_nf <;> simp <;> ring
  rw [hY, rotZ_eq, show (-(1/2)/2 : ℝ) = -(1/4) by norm_num, show ((1/2)/2 : ℝ) = 1/4 by norm_num, Matrix.smul_mul, Matrix.mul_smul]
  congr 1
  simp only [mat2_mul]
  congr 1
  · have := ph_quarter'; linear_combination this
  · have := ph_neg_mul (1/4); linear_combination -this
  · have := ph_mul_neg (1/4); linear_combination this
  · have := ph_quarter; linear_combination this

theorem bcL_gates (p : PauliString) (q : ℕ) (ψ : QState) : gates (bcL p q) ψ = op1 (bm p q) q ψ := by
  unfold bcL bm
  cases e : p.axes.get? q with
  | none => simp [gates, op1_one]
  | some a =>
    cases a
    · rfl
    · show op1 (rot Ops.Z (1/2)) q (op1 (rot Ops.Y (1/2)) q (op1 (rot Ops.Z (1/2)) q ψ)) = _
      rw [op1_mul, op1_mul, Matrix.mul_assoc, hy_mat]
    · simp [gates, op1_one]

theorem bm_spec {p : PauliString} {q : ℕ} (h : (p.axes.get? q).isSome) :
    ∃ c : ℂ, ‖c‖ = 1 ∧ bm p q * bm p q = c • (1 : Mat2) ∧ bm p q * (Ops.Z * bm p q) = c • p.mat q := by
  unfold bm PauliString.mat
  have hs : (Real.sqrt 2 : ℂ) / 2 * ((Real.sqrt 2 : ℂ) / 2) = 1 / 2 := by
    have := sqrt2_mul
    linear_combination this / 4
  cases e : p.axes.get? q with
  | none => simp [e] at h
  | some a =>
    cases a
    · refine ⟨1, by simp, by simp [Berg.H_mul_H], ?_⟩
      simp only [Ops.fromAxis, Ops.H, Matrix.smul_mul, Matrix.mul_smul, smul_smul]
      rw [sqrt2_inv_mul]
      simp only [Ops.Z, Ops.X, mat2_mul, mat2_smul]
      norm_num
    · refine ⟨-1, by simp, ?_, ?_⟩
      · simp only [Matrix.smul_mul, Matrix.mul_smul, smul_smul]
        rw [hs]
        simp only [mat2_mul, mat2_smul, mat2_one]
        congr 1 <;> ring_nf <;> simp <;> norm_num
      · simp only [Matrix.smul_mul, Matrix.mul_smul, smul_smul]
        rw [hs]
        simp only [mat2_mul, mat2_smul, Ops.fromAxis, Ops.Y, Ops.Z]
        congr 1 <;> ring_nf <;> simp
    · exact ⟨1, by simp, by simp, by simp [Ops.fromAxis]⟩

/-- `cos(θπ/2) - i sin(θπ/2) W`. -/
noncomputable def rotOp (W : QState → QState) (θ : ℝ) (ψ : QState) : QState :=
  (Real.cos (θ * Real.pi / 2) : ℂ) • ψ - (Complex.I * Real.sin (θ * Real.pi / 2)) • W ψ

theorem op1_rot (P : Mat2) (θ : ℝ) (q : ℕ) (ψ : QState) : op1 (rot P θ) q ψ = rotOp (op1 P q) θ ψ := by
  unfold rot rotOp
  rw [sub_eq_add_neg, sub_eq_add_neg, op1_mat_add, op1_mat_smul, op1_one, ← neg_smul, op1_mat_smul, neg_smul]

/-- Conjugation of a rotation. -/
theorem rotOp_conj {A : QState → QState} {W W' : QState → QState} {c : ℂ} (hadd : ∀ ψ φ, A (ψ + φ) = A ψ + A φ) (hA : Homog A)
    (h1 : ∀ ψ, A (A ψ) = c • ψ) (h2 : ∀ ψ, A (W (A ψ)) = c • W' ψ) (θ : ℝ) (ψ : QState) : A (rotOp W θ (A ψ)) = c • rotOp W' θ ψ := by
  unfold rotOp
  rw [sub_eq_add_neg, ← neg_smul, hadd, hA, hA, h1, h2, sub_eq_add_neg, ← neg_smul, smul_add]
  congr 1
  · rw [smul_comm]
  · rw [smul_comm]

theorem cnot_zz {q q' : ℕ} (h : q ≠ q') (ψ : QState) : cnotOp q q' (op1 Ops.Z q' (cnotOp q q' ψ)) = op1 Ops.Z q (op1 Ops.Z q' ψ) := by
  funext b
  rw [← pm01]
  simp only [cnotOp, Berg.op1_pm]
  rw [← mul_assoc]
  congr 1
  · simp only [update_self, update_of_ne h, update_of_ne h.symm]
    cases b q <;> cases b q' <;> simp [Berg.pph]
  · congr 1
    funext k
    by_cases e : k = q'
    · subst e; simp [update_of_ne h]
    · by_cases e' : k = q
      · subst e'; simp [update_of_ne e]
      · simp [update_of_ne e]

theorem cnot_locOps {q q' : ℕ} (F : ℕ → Mat2) (l : List ℕ) (h : q ∉ l) (h' : q' ∉ l) (ψ : QState) :
    cnotOp q q' (locOps F l ψ) = locOps F l (cnotOp q q' ψ) := by
  induction l with
  | nil => rfl
  | cons a l ih =>
    simp only [List.mem_cons, not_or] at h h'
    simp only [locOps]
    rw [cnot_op1_comm h.1 h'.1, ih h.2 h'.2]

theorem gates_append (l l' : List Instr) (ψ : QState) : gates (l ++ l') ψ = gates l' (gates l ψ) := Berg.gates_append l l' ψ

theorem gates_homog (l : List Instr) : Homog (gates l) := by
  induction l with
  | nil => intro c ψ; rfl
  | cons i l ih =>
    intro c ψ
    show gates l (i.gate (c • ψ)) = c • gates l (i.gate ψ)
    rw [i.gate_homog, ih]

/-- The ladder implements the rotation about `Z_q P_{r₀} P_{r₁} …`. -/
theorem ladL_gates {p : PauliString} (θ : ℝ) : ∀ (r : List ℕ) (q : ℕ), (∀ k ∈ r, (p.axes.get? k).isSome) → (q :: r).Nodup →
    ∃ c : ℂ, ‖c‖ = 1 ∧ ∀ ψ, gates (ladL p θ q r) ψ = c • rotOp (fun ψ => op1 Ops.Z q (locOps p.mat r ψ)) θ ψ := by
  intro r
  induction r with
  | nil =>
    intro q _ _
    refine ⟨1, by simp, fun ψ => ?_⟩
    rw [one_smul]
    exact op1_rot Ops.Z θ q ψ
  | cons q' r ih =>
    intro q hr hnd
    obtain ⟨c, hc, h1⟩ := ih q' (fun k hk => hr k (by simp [hk])) (List.nodup_cons.1 hnd).2
    obtain ⟨d, hd, h2, h3⟩ := bm_spec (hr q' (by simp))
    have hqq : q ≠ q' := by rintro rfl; simp at hnd
    have hqr : q ∉ r := by simp at hnd; tauto
    have hqr' : q' ∉ r := by simp at hnd; tauto
    refine ⟨c * d, by rw [norm_mul, hc, hd, mul_one], fun ψ => ?_⟩
    unfold ladL
    have e1 : gates (Instr.CNOT q q' :: bcL p q') = fun ψ => op1 (bm p q') q' (cnotOp q q' ψ) := by
      funext φ
      show gates (bcL p q') (cnotOp q q' φ) = _
      rw [bcL_gates]
    rw [gates_append, gates_append, gates_append, bcL_gates, e1, h1]
    show op1 (bm p q') q' (cnotOp q q' (c • rotOp _ θ (cnotOp q q' (op1 (bm p q') q' ψ)))) = _
    have hC : ∀ (a : ℂ) (φ : QState), cnotOp q q' (a • φ) = a • cnotOp q q' φ := fun _ _ => rfl
    rw [hC, op1_smul, mul_smul]
    congr 1
    rw [rotOp_conj (c := 1) (W' := fun ψ => op1 Ops.Z q (op1 Ops.Z q' (locOps p.mat r ψ))) (fun _ _ => rfl) hC
      (fun ψ => by rw [Berg.cnot_cnot hqq, one_smul])
      (fun ψ => by rw [← cnot_locOps _ _ hqr hqr', cnot_zz hqq, one_smul]), one_smul]
    refine rotOp_conj (fun _ _ => op1_add _ _ _ _) (fun _ _ => op1_smul _ _ _ _)
      (fun ψ => by rw [op1_mul, h2, op1_mat_smul, op1_one]) (fun ψ => ?_) θ ψ
    rw [op1_comm (bm p q') Ops.Z hqq.symm, ← locOps_op1 _ _ hqr', op1_mul, op1_mul, Matrix.mul_assoc, h3, op1_mat_smul, op1_smul]
    rfl

/-! ### A Pauli exponential -/

theorem locOps_filter (F : ℕ → Mat2) (P : ℕ → Bool) (l : List ℕ) (h : ∀ k ∈ l, P k = false → F k = 1) (ψ : QState) :
    locOps F (l.filter P) ψ = locOps F l ψ := by
  induction l with
  | nil => rfl
  | cons a l ih =>
    have ih := ih fun k hk => h k (by simp [hk])
    cases e : P a
    · rw [List.filter_cons_of_neg (by simp [e])]
      simp only [locOps]
      rw [h a (by simp) e, op1_one, ih]
    · rw [List.filter_cons_of_pos e]
      simp only [locOps]
      rw [ih]

theorem op_keys {p : PauliString} (hp : p.Valid) (ψ : QState) : p.op ψ = p.sign.toComplex • locOps p.mat p.axes.keys ψ := by
  unfold PauliString.op
  rw [← locOps_foldr, ← locOps_filter p.mat (fun k => decide (k ∈ p.axes.keys))]
  · congr 1
    apply locOps_perm
    · rw [List.perm_ext_iff_of_nodup (List.nodup_range.filter _) hp.keys]
      intro k
      simp only [List.mem_filter, List.mem_range, decide_eq_true_eq]
      exact ⟨fun h => h.2, fun h => ⟨hp.range k h, h⟩⟩
    · exact List.nodup_range.filter _
  · intro k _ hk
    rw [decide_eq_false_iff_not] at hk
    unfold PauliString.mat
    rw [(PyDict.get?_eq_none_iff _ _).2 hk]

theorem rotOp_eq {e : PauliExponential} (hp : e.ps.Valid) (ψ : QState) :
    rotOp (locOps e.ps.mat e.ps.axes.keys) (-2 * e.angle * e.ps.sign.toInt) ψ = e.op ψ := by
  unfold rotOp PauliExponential.op
  rw [op_keys hp]
  cases e.ps.sign
  · have h : -2 * e.angle * ((Sign.plus.toInt : ℤ) : ℝ) * Real.pi / 2 = -(e.angle * Real.pi) := by
      simp [Sign.toInt]; ring
    rw [h, Real.cos_neg, Real.sin_neg]
    simp [Sign.toComplex, Sign.toInt]
  · have h : -2 * e.angle * ((Sign.minus.toInt : ℤ) : ℝ) * Real.pi / 2 = e.angle * Real.pi := by
      simp [Sign.toInt]; ring
    rw [h]
    simp [Sign.toComplex, Sign.toInt, sub_eq_add_neg]

theorem gates_rInstr (q : ℕ) (a : Axis) (θ : ℝ) (ψ : QState) : gates [rInstr q a θ] ψ = op1 (rot (Ops.fromAxis a) θ) q ψ := by
  cases a <;> rfl

theorem bcL_ok {p : PauliString} {q : ℕ} {s : Finset ℕ} (hq : q ∈ s) : Circuit.listOk s (bcL p q) ∧ Circuit.afterList s (bcL p q) = s := by
  unfold bcL
  split <;> simp [Circuit.listOk, Circuit.afterList, Circuit.instrOk, Instr.after, hq]

theorem bcL_isGate (p : PauliString) (q : ℕ) : ∀ i ∈ bcL p q, i.isGate := by
  unfold bcL
  split <;> simp [Instr.isGate]

theorem ladL_ok {p : PauliString} {θ : ℝ} {s : Finset ℕ} : ∀ (r : List ℕ) (q : ℕ), (∀ k ∈ q :: r, k ∈ s) → (q :: r).Nodup →
    (Circuit.listOk s (ladL p θ q r) ∧ Circuit.afterList s (ladL p θ q r) = s) ∧ ∀ i ∈ ladL p θ q r, i.isGate := by
  intro r
  induction r with
  | nil => intro q h _; simp [ladL, Circuit.listOk, Circuit.afterList, Circuit.instrOk, Instr.after, Instr.isGate, h q]
  | cons q' r ih =>
    intro q h hnd
    obtain ⟨⟨h1, h2⟩, h3⟩ := ih q' (fun k hk => h k (by simp [List.mem_cons.1 hk])) (List.nodup_cons.1 hnd).2
    have hq' := h q' (by simp)
    have hqs := h q (by simp)
    obtain ⟨b1, b2⟩ := bcL_ok (p := p) hq'
    have hqq : q ≠ q' := by rintro rfl; simp at hnd
    unfold ladL
    refine ⟨?_, ?_⟩
    · simp [Circuit.listOk_append, Circuit.afterList_append, Circuit.listOk, Circuit.afterList, Circuit.instrOk, Instr.after, b1, b2, h1, h2,
        hq', hqs, hqq]
    · intro i hi
      simp only [List.mem_append, List.mem_cons, List.not_mem_nil, or_false] at hi
      rcases hi with ((hi | rfl) | hi) | rfl | hi
      · exact bcL_isGate p q' i hi
      · trivial
      · exact h3 i hi
      · trivial
      · exact bcL_isGate p q' i hi

theorem instrOk_of_listOk {s : Finset ℕ} {l : List Instr} (hg : ∀ i ∈ l, i.isGate) (h : Circuit.listOk s l) :
    ∀ i ∈ l, i.isGate ∧ Circuit.instrOk s i = true := by
  induction l with
  | nil => simp
  | cons a l ih =>
    have ha : a.after s = s := by
      have := hg a (by simp)
      cases a <;> simp_all [Instr.after, Instr.isGate]
    simp only [Circuit.listOk, ha] at h
    intro i hi
    rcases List.mem_cons.1 hi with rfl | hi
    · exact ⟨hg _ (by simp), h.1⟩
    · exact ih (fun j hj => hg j (by simp [hj])) h.2 i hi

theorem mem_pairwise : ∀ (l : List ℕ) (x : ℕ × ℕ), x ∈ pairwise l → x.1 ∈ l ∧ x.2 ∈ l := by
  intro l
  fun_induction pairwise l with
  | case1 a b l ih =>
    intro x hx
    rcases List.mem_cons.1 hx with rfl | hx
    · simp
    · obtain ⟨h1, h2⟩ := ih x hx
      exact ⟨List.mem_cons_of_mem _ h1, List.mem_cons_of_mem _ h2⟩
  | case2 => simp

/-- **C49.** For every Pauli exponential whose qubits are active, the gates appended by `add_pexp` implement
`exp(i α P) = cos α + i sin α P`, up to a global phase. -/
theorem C49_pauli_exponential (e : PauliExponential) (he : e.ps.Valid) (c : Circuit) (hc : ∀ k ∈ e.ps.axes.keys, k ∈ c.active) :
    ∃ l, addPexp e c = .ok ⟨c.width, c.instrs ++ l, c.active⟩ ∧ (∀ i ∈ l, i.isGate ∧ Circuit.instrOk c.active i = true) ∧ OpPhaseEq (gates l) e.op := by
  unfold addPexp
  by_cases h0 : e.angle = 0
  · rw [if_pos h0]
    refine ⟨[], by simp, by simp, 1, by simp, fun ψ => ?_⟩
    simp [gates, PauliExponential.op, h0]
  rw [if_neg h0]
  simp only
  set θ := -2 * e.angle * (e.ps.sign.toInt : ℝ) with hθ
  have hsome : ∀ k ∈ e.ps.axes.keys, (e.ps.axes.get? k).isSome := fun k hk => (PyDict.get?_isSome_iff _ _).2 hk
  have hrot := rotOp_eq he
  rw [← hθ] at hrot
  have hnd := he.keys
  match hks : e.ps.axes.keys with
  | [] =>
    refine ⟨[], by simp, by simp, ?_⟩
    refine ⟨ph (-(e.angle * e.ps.sign.toInt)), ph_norm _, fun ψ => ?_⟩
    rw [← hrot ψ, hks]
    show ψ = _ • rotOp (fun ψ => ψ) θ ψ
    unfold rotOp
    rw [← sub_smul, smul_smul, cos_eq, isin_eq, show (-(e.angle * (e.ps.sign.toInt : ℝ))) = θ / 2 by rw [hθ]; ring,
      show (ph (θ/2) + ph (-θ/2)) / 2 - (ph (θ/2) - ph (-θ/2)) / 2 = ph (-(θ/2)) by rw [show -θ/2 = -(θ/2) by ring]; ring, ph_mul_neg, one_smul]
  | [q0] =>
    have hq0 : q0 ∈ e.ps.axes.keys := by rw [hks]; simp
    obtain ⟨a, ha⟩ := Option.isSome_iff_exists.1 (hsome q0 hq0)
    simp only [ha]
    refine ⟨[rInstr q0 a θ], ?_, ?_, 1, by simp, fun ψ => ?_⟩
    · rw [Circuit.add_ok_iff]
      refine ⟨?_, ?_⟩
      · cases a <;> simp [rInstr, Circuit.instrOk, hc q0 hq0]
      · cases a <;> rfl
    · cases a <;> simp [rInstr, Instr.isGate, Circuit.instrOk, hc q0 hq0]
    · rw [gates_rInstr, op1_rot, ← hrot ψ, one_smul, hks]
      have : locOps e.ps.mat [q0] = op1 (Ops.fromAxis a) q0 := by
        funext φ
        simp [locOps, PauliString.mat, ha]
      rw [this]
  | q0 :: q1 :: r =>
    have hq0 : q0 ∈ e.ps.axes.keys := by rw [hks]; simp
    have hdown : ∀ x ∈ pairwise (q0 :: q1 :: r), (e.ps.axes.get? x.2).isSome := fun x hx =>
      hsome x.2 (by rw [hks]; exact (mem_pairwise _ x hx).2)
    have hup : ∀ x ∈ pairwise (q0 :: q1 :: r).reverse, (e.ps.axes.get? x.1).isSome := fun x hx =>
      hsome x.1 (by rw [hks]; exact List.mem_reverse.1 (mem_pairwise _ x hx).1)
    rw [hks] at hnd
    have hact : ∀ k ∈ q0 :: q1 :: r, k ∈ c.active := fun k hk => hc k (by rw [hks]; exact hk)
    obtain ⟨⟨o1, o2⟩, o3⟩ := ladL_ok (p := e.ps) (θ := θ) (q1 :: r) q0 hact hnd
    obtain ⟨b1, b2⟩ := bcL_ok (p := e.ps) (hact q0 (by simp))
    refine ⟨bcL e.ps q0 ++ (ladL e.ps θ q0 (q1 :: r) ++ bcL e.ps q0), ?_, ?_, ?_⟩
    · have hex : ∀ c : Circuit, (c.extend (bcL e.ps q0) >>= fun c => ladderDown e.ps (pairwise (q0 :: q1 :: r)) c >>= fun c =>
          c.add (.RZ ((q0 :: q1 :: r).getLastD 0) θ) >>= fun c => ladderUp e.ps (pairwise (q0 :: q1 :: r).reverse) c >>= fun c =>
          c.extend (bcL e.ps q0)) = c.extend (bcL e.ps q0 ++ (ladL e.ps θ q0 (q1 :: r) ++ bcL e.ps q0)) := by
        intro c
        rw [extend_append, ← ladL_eq, List.append_assoc, List.append_assoc]
        congr 1; funext c
        rw [ladderDown_eq _ hdown, extend_append]
        congr 1; funext c
        rw [extend_append, extend_single]
        congr 1; funext c
        rw [ladderUp_eq _ hup, extend_append]
      have hb := basisChange_ok (hsome q0 hq0)
      simp only [hb]
      refine (hex c).trans (Circuit.extend_ok_iff.2 ⟨?_, ?_⟩)
      · simp [Circuit.listOk_append, b1, b2, o1, o2]
      · simp [Circuit.afterList_append, b2, o2]
    · refine instrOk_of_listOk (fun i hi => ?_) (by simp [Circuit.listOk_append, b1, b2, o1, o2])
      simp only [List.mem_append] at hi
      rcases hi with hi | hi | hi
      · exact bcL_isGate _ _ i hi
      · exact o3 i hi
      · exact bcL_isGate _ _ i hi
    · obtain ⟨c1, hc1, g1⟩ := ladL_gates (p := e.ps) θ (q1 :: r) q0 (fun k hk => hsome k (by rw [hks]; simp [List.mem_cons.1 hk])) hnd
      obtain ⟨d, hd, g2, g3⟩ := bm_spec (hsome q0 hq0)
      refine ⟨c1 * d, by rw [norm_mul, hc1, hd, mul_one], fun ψ => ?_⟩
      rw [gates_append, gates_append, bcL_gates, bcL_gates, g1, op1_smul, mul_smul, ← hrot ψ, hks]
      congr 1
      refine rotOp_conj (fun _ _ => op1_add _ _ _ _) (fun _ _ => op1_smul _ _ _ _)
        (fun ψ => by rw [op1_mul, g2, op1_mat_smul, op1_one]) (fun ψ => ?_) θ ψ
      rw [← locOps_op1 _ _ (List.nodup_cons.1 hnd).1, op1_mul, op1_mul, Matrix.mul_assoc, g3, op1_mat_smul]
      rfl

/-- **C49.** `pexp_ladder_pass`: the gates appended to the circuit implement the product of the Pauli exponentials of the
nodes, in the order of the layers (from the last layer to the layer 1; each layer in the order in which the set is
enumerated), up to a global phase. -/
theorem C49_ladder_pass (d : PauliExponentialDAG) (ord : SetOrd) (c : Circuit)
    (h : ∀ node ∈ nodeOrder d ord, ∃ e, d.pexps.get? node = some e ∧ e.ps.Valid ∧ ∀ k ∈ e.ps.axes.keys, k ∈ c.active) :
    ∃ l, ladderPass d ord c = .ok ⟨c.width, c.instrs ++ l, c.active⟩ ∧ (∀ i ∈ l, i.isGate ∧ Circuit.instrOk c.active i = true) ∧
      OpPhaseEq (gates l) fun ψ => (nodeOrder d ord).foldl (fun ψ node => ((d.pexps.get? node).getD ⟨0, ⟨0, [], .plus⟩⟩).op ψ) ψ := by
  unfold ladderPass
  generalize nodeOrder d ord = ns at h
  induction ns generalizing c with
  | nil => exact ⟨[], by simp [addPexps], by simp, 1, by simp, fun ψ => by simp [gates]⟩
  | cons node ns ih =>
    obtain ⟨e, he, hv, hk⟩ := h node (by simp)
    obtain ⟨l1, h1, h2, a, ha, h3⟩ := C49_pauli_exponential e hv c hk
    obtain ⟨l2, h4, h5, b, hb, h6⟩ := ih ⟨c.width, c.instrs ++ l1, c.active⟩ fun n hn => h n (by simp [hn])
    refine ⟨l1 ++ l2, ?_, ?_, a * b, by rw [norm_mul, ha, hb, mul_one], fun ψ => ?_⟩
    · simp only [addPexps, he, h1, bind, Except.bind]
      rw [h4]; simp
    · intro i hi
      exact (List.mem_append.1 hi).elim (h2 i) (h5 i)
    · rw [gates_append, h3, gates_homog, h6, smul_smul]
      simp only [List.foldl_cons, he, Option.getD_some]

/-- The hypotheses are met: `exp(i 0.3 π · -(X₀ Y₂ Z₁))` on a circuit with three qubits. -/
example : ∃ e : PauliExponential, e.ps.Valid ∧ e.ps.axes.keys.length = 3 ∧ ∀ k ∈ e.ps.axes.keys, k ∈ (Circuit.new 3).active :=
  ⟨⟨0.3, ⟨3, [(0, .X), (2, .Y), (1, .Z)], .minus⟩⟩, ⟨by decide, by decide⟩, rfl, by decide⟩

/-- **C49.** The order of `pexp_ladder_pass`: the nodes of the layers 1, 2, … (the layer 0 holds the outputs), those of a
layer before those of the layers with a smaller index, each once. -/
theorem C49_order (d : PauliExponentialDAG) (ord : SetOrd) (ho : ord.Valid) :
    (∀ x, x ∈ nodeOrder d ord ↔ ∃ i L, d.layers[i + 1]? = some L ∧ x ∈ L) ∧
    (∀ i j L L', i < j → d.layers[i + 1]? = some L → d.layers[j + 1]? = some L' → ∀ x ∈ L', ∀ y ∈ L,
      [x, y].Sublist (nodeOrder d ord)) ∧
    (d.layers.Pairwise Disjoint → (nodeOrder d ord).Nodup) := by
  have hmem : ∀ (T : List (Finset ℕ)) (k x : ℕ), x ∈ ((T.zipIdx k).reverse.map fun (L, i) => ord i 0 L).flatten ↔
      ∃ L ∈ T, x ∈ L := by
    intro T
    induction T with
    | nil => intro k x; simp
    | cons L T ih =>
      intro k x
      rw [List.zipIdx_cons, List.reverse_cons, List.map_append, List.flatten_append, List.mem_append, ih]
      simp only [List.map_cons, List.map_nil, List.flatten_cons, List.flatten_nil, List.append_nil]
      rw [(ho k 0 L).2]
      simp [or_comm]
  have hget : ∀ i, d.layers[i + 1]? = d.layers.tail[i]? := fun i => by simp
  refine ⟨fun x => ?_, fun i j L L' hij hi hj x hx y hy => ?_, fun hd => ?_⟩
  · unfold nodeOrder
    rw [hmem]
    simp only [hget, List.mem_iff_getElem?]
    constructor
    · rintro ⟨L, ⟨i, hi⟩, hx⟩; exact ⟨i, L, hi, hx⟩
    · rintro ⟨i, L, hi, hx⟩; exact ⟨L, ⟨i, hi⟩, hx⟩
  · rw [hget] at hi hj
    unfold nodeOrder
    generalize d.layers.tail = T at hi hj
    have key : ∀ (T : List (Finset ℕ)) (k i j : ℕ), i < j → T[i]? = some L → T[j]? = some L' →
        [x, y].Sublist ((T.zipIdx k).reverse.map fun (L, i) => ord i 0 L).flatten := by
      intro T
      induction T with
      | nil => intro k i j _ hi; simp at hi
      | cons M T ih =>
        intro k i j hij hi hj
        rw [List.zipIdx_cons, List.reverse_cons, List.map_append, List.flatten_append]
        obtain ⟨j, rfl⟩ : ∃ j', j = j' + 1 := ⟨j - 1, by omega⟩
        rw [List.getElem?_cons_succ] at hj
        cases i with
        | zero =>
          simp only [List.getElem?_cons_zero, Option.some.injEq] at hi
          subst hi
          refine List.Sublist.append (l₁ := [x]) (r₁ := [y]) ?_ ?_
          · rw [List.singleton_sublist, hmem]
            exact ⟨L', List.mem_of_getElem? hj, hx⟩
          · simp only [List.map_cons, List.map_nil, List.flatten_cons, List.flatten_nil, List.append_nil,
              List.singleton_sublist]
            exact (ho k 0 M).2 y |>.2 hy
        | succ i =>
          rw [List.getElem?_cons_succ] at hi
          exact (ih (k + 1) i j (by omega) hi hj).trans (List.sublist_append_left _ _)
    exact key T 0 i j hij hi hj
  · unfold nodeOrder
    have hd' : d.layers.tail.Pairwise Disjoint := hd.sublist (List.tail_sublist _)
    generalize d.layers.tail = T at hd'
    have key : ∀ (T : List (Finset ℕ)) (k : ℕ), T.Pairwise Disjoint →
        ((T.zipIdx k).reverse.map fun (L, i) => ord i 0 L).flatten.Nodup := by
      intro T
      induction T with
      | nil => intro k _; simp
      | cons M T ih =>
        intro k hT
        rw [List.pairwise_cons] at hT
        rw [List.zipIdx_cons, List.reverse_cons, List.map_append, List.flatten_append, List.nodup_append']
        refine ⟨ih _ hT.2, by simpa using (ho k 0 M).1, ?_⟩
        rw [List.disjoint_left]
        intro a ha hb
        rw [hmem] at ha
        obtain ⟨L, hL, ha⟩ := ha
        simp only [List.map_cons, List.map_nil, List.flatten_cons, List.flatten_nil, List.append_nil] at hb
        exact Finset.disjoint_left.1 (hT.1 L hL) (((ho k 0 M).2 a).1 hb) ha
    exact key T 0 hd'

/-- A directed acyclic graph with the layers `{5}`, `{3, 4}`, `{1, 2}`: the node 1 comes before the node 3. -/
example (ord : SetOrd) (ho : ord.Valid) :
    [1, 3].Sublist (nodeOrder ⟨[], [{5}, {3, 4}, {1, 2}], [5]⟩ ord) ∧ (nodeOrder ⟨[], [{5}, {3, 4}, {1, 2}], [5]⟩ ord).Nodup :=
  ⟨(C49_order _ ord ho).2.1 0 1 {3, 4} {1, 2} (by decide) rfl rfl 1 (by decide) 3 (by decide),
    (C49_order _ ord ho).2.2 (by decide)⟩

/-- `er_to_circuit`, with the gates of the Clifford part. -/
theorem er_to_circuit_gates (er : ExtractionResult) (ord : SetOrd) (n : ℕ) (hn : 0 < n) (hcm : er.cliffordMap.Valid n)
    (hout : er.pexpDag.outputs = er.cliffordMap.outputs)
    (h : ∀ node ∈ nodeOrder er.pexpDag ord, ∃ e, er.pexpDag.pexps.get? node = some e ∧ e.ps.Valid ∧ e.ps.dim = n) :
    ∃ c l1, erToCircuit er ord = .ok c ∧ c.width = n ∧ (∀ i ∈ c.instrs, i.isGate ∧ Circuit.instrOk (Finset.range n) i = true) ∧
      (∀ i ∈ l1, i.isGate ∧ Circuit.instrOk (Finset.range n) i = true) ∧
      (∀ (q : ℕ) p, er.cliffordMap.xMap[q]? = some p → ∀ ψ, gates l1 (op1 Ops.X q ψ) = p.op (gates l1 ψ)) ∧
      (∀ (q : ℕ) p, er.cliffordMap.zMap[q]? = some p → ∀ ψ, gates l1 (op1 Ops.Z q ψ) = p.op (gates l1 ψ)) ∧
      OpPhaseEq (gates c.instrs) fun ψ =>
        (nodeOrder er.pexpDag ord).foldl (fun ψ node => ((er.pexpDag.pexps.get? node).getD ⟨0, ⟨0, [], .plus⟩⟩).op ψ) (gates l1 ψ) := by
  have hlen : er.pexpDag.outputs.length = n := by rw [hout, hcm.outputs]
  obtain ⟨l1, h1, h2, h3, h4⟩ := Berg.C48_berg_pass er.cliffordMap n hn hcm (Circuit.new n) (by simp [Circuit.new])
  obtain ⟨l2, h5, h6, a, ha, h7⟩ := C49_ladder_pass er.pexpDag ord ⟨n, l1, Finset.range n⟩ fun node hn => by
    obtain ⟨e, e1, e2, e3⟩ := h node hn
    exact ⟨e, e1, e2, fun k hk => Finset.mem_range.2 (e3 ▸ e2.range k hk)⟩
  refine ⟨⟨n, l1 ++ l2, Finset.range n⟩, l1, ?_, rfl, ?_, h2, h3, h4, a, ha, fun ψ => ?_⟩
  · unfold erToCircuit
    rw [if_neg (by simp [hout]), hlen]
    simp only [h1, bind, Except.bind]
    exact h5
  · intro i hi
    exact (List.mem_append.1 hi).elim (h2 i) (h6 i)
  · show gates (l1 ++ l2) ψ = _
    rw [gates_append, h7]

/-- **C49.** `er_to_circuit` with the default passes: a circuit on as many qubits as outputs, whose gates are a Clifford
unitary with the images of the generators given by the Clifford map, followed by the Pauli exponentials, up to a global
phase. -/
theorem C49_er_to_circuit (er : ExtractionResult) (ord : SetOrd) (n : ℕ) (hn : 0 < n) (hcm : er.cliffordMap.Valid n)
    (hout : er.pexpDag.outputs = er.cliffordMap.outputs)
    (h : ∀ node ∈ nodeOrder er.pexpDag ord, ∃ e, er.pexpDag.pexps.get? node = some e ∧ e.ps.Valid ∧ e.ps.dim = n) :
    ∃ c U, erToCircuit er ord = .ok c ∧ c.width = n ∧ (∀ i ∈ c.instrs, i.isGate) ∧ Homog U ∧
      (∀ (q : ℕ) p, er.cliffordMap.xMap[q]? = some p → ∀ ψ, U (op1 Ops.X q ψ) = p.op (U ψ)) ∧
      (∀ (q : ℕ) p, er.cliffordMap.zMap[q]? = some p → ∀ ψ, U (op1 Ops.Z q ψ) = p.op (U ψ)) ∧
      OpPhaseEq (gates c.instrs) fun ψ =>
        (nodeOrder er.pexpDag ord).foldl (fun ψ node => ((er.pexpDag.pexps.get? node).getD ⟨0, ⟨0, [], .plus⟩⟩).op ψ) (U ψ) := by
  obtain ⟨c, l1, h1, h2, h3, -, h5, h6, h7⟩ := er_to_circuit_gates er ord n hn hcm hout h
  exact ⟨c, gates l1, h1, h2, fun i hi => (h3 i hi).1, gates_homog l1, h5, h6, h7⟩

/-- The lists of outputs are compared. -/
theorem C49_er_outputs_differ (er : ExtractionResult) (ord : SetOrd) (h : er.pexpDag.outputs ≠ er.cliffordMap.outputs) :
    erToCircuit er ord = .error .valueError := by
  unfold erToCircuit
  rw [if_pos h]
  rfl

end Pexp
end Graphix
