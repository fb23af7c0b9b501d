import Verif.Proofs.Qasm
import Verif.Proofs.NeverZero
import Verif.Proofs.EndToEnd
import Verif.Spec.CircRun

/-! # Runs of the program written for a circuit -/

namespace Graphix

open Function
open scoped Classical

/-- The instruction with the angle that is written. -/
noncomputable def printedInstr (env : QasmEnv) : Instr → Instr
  | .RX t θ => .RX t (printedAngle env θ)
  | .RY t θ => .RY t (printedAngle env θ)
  | .RZ t θ => .RZ t (printedAngle env θ)
  | .J t θ => .J t (printedAngle env θ)
  | i => i

/-- The call of a gate. -/
noncomputable def instrCall (env : QasmEnv) : Instr → QCall
  | .RX t θ => ⟨"rx", some (printedAngle env θ * Real.pi), [t]⟩
  | .RY t θ => ⟨"ry", some (printedAngle env θ * Real.pi), [t]⟩
  | .RZ t θ => ⟨"rz", some (printedAngle env θ * Real.pi), [t]⟩
  | .RZZ c t θ => ⟨"crz", some (printedAngle env θ * Real.pi), [c, t]⟩
  | .H t => ⟨"h", none, [t]⟩
  | .S t => ⟨"s", none, [t]⟩
  | .X t => ⟨"x", none, [t]⟩
  | .Y t => ⟨"y", none, [t]⟩
  | .Z t => ⟨"z", none, [t]⟩
  | .I t => ⟨"id", none, [t]⟩
  | .CNOT c t => ⟨"cx", none, [c, t]⟩
  | .SWAP u v => ⟨"swap", none, [u, v]⟩
  | .CZ u v => ⟨"cz", none, [u, v]⟩
  | .CCX c d t => ⟨"ccx", none, [c, d, t]⟩
  | .M t _ => ⟨"", none, [t]⟩
  | .J t _ => ⟨"", none, [t]⟩

/-- The statement of an instruction. -/
noncomputable def instrStmt (env : QasmEnv) : Instr → QStmt
  | .M t _ => .measure t t
  | i => .call (instrCall env i)

theorem emits_plain1 (g : String) (t : ℕ) : Emits true (qasm3GateCall g [qasm3Qubit t] ++ [.semi]) [.call ⟨g, none, [t]⟩] :=
  Emits.stmt fun _ => .call (.plain (.one rfl))

theorem emits_plain2 (g : String) (t u : ℕ) : Emits true (qasm3GateCall g [qasm3Qubit t, qasm3Qubit u] ++ [.semi]) [.call ⟨g, none, [t, u]⟩] :=
  Emits.stmt fun _ => .call (.plain (.more rfl (.one rfl)))

theorem emits_plain3 (g : String) (t u v : ℕ) :
    Emits true (qasm3GateCall g [qasm3Qubit t, qasm3Qubit u, qasm3Qubit v] ++ [.semi]) [.call ⟨g, none, [t, u, v]⟩] :=
  Emits.stmt fun _ => .call (.plain (.more rfl (.more rfl (.one rfl))))

theorem emits_arg1 (env : QasmEnv) (g : String) (θ : ℝ) (t : ℕ) :
    Emits true (qasm3GateCall g [qasm3Qubit t] (some [angleToQasm3 env θ]) ++ [.semi]) [.call ⟨g, some (printedAngle env θ * Real.pi), [t]⟩] := by
  refine Emits.stmt fun rest => ?_
  have h := qExpr_angle env θ (qasm3Qubit t ++ .semi :: rest)
  simp only [qasm3GateCall, commaJoin, List.cons_append, List.nil_append, List.append_assoc]
  exact .call (.arg h (.one rfl))

theorem emits_arg2 (env : QasmEnv) (g : String) (θ : ℝ) (t u : ℕ) :
    Emits true (qasm3GateCall g [qasm3Qubit t, qasm3Qubit u] (some [angleToQasm3 env θ]) ++ [.semi])
      [.call ⟨g, some (printedAngle env θ * Real.pi), [t, u]⟩] := by
  refine Emits.stmt fun rest => ?_
  have h := qExpr_angle env θ (qasm3Qubit t ++ .comma :: (qasm3Qubit u ++ .semi :: rest))
  simp only [qasm3GateCall, commaJoin, List.cons_append, List.nil_append, List.append_assoc]
  exact .call (.arg h (.more rfl (.one rfl)))

theorem emits_instr {env : QasmEnv} {i : Instr} {t : List QTok} (h : instructionToQasm3 env i = .ok t) : Emits true (t ++ [.semi]) [instrStmt env i] := by
  cases i with
  | M q a =>
    simp only [instructionToQasm3] at h
    split at h
    · cases h
    · cases h
      exact Emits.stmt fun _ => .measure rfl rfl
  | J q θ => cases h
  | RX q θ => cases h; exact emits_arg1 env "rx" θ q
  | RY q θ => cases h; exact emits_arg1 env "ry" θ q
  | RZ q θ => cases h; exact emits_arg1 env "rz" θ q
  | RZZ c q θ => cases h; exact emits_arg2 env "crz" θ c q
  | H q => cases h; exact emits_plain1 "h" q
  | S q => cases h; exact emits_plain1 "s" q
  | X q => cases h; exact emits_plain1 "x" q
  | Y q => cases h; exact emits_plain1 "y" q
  | Z q => cases h; exact emits_plain1 "z" q
  | I q => cases h; exact emits_plain1 "id" q
  | CNOT c q => cases h; exact emits_plain2 "cx" c q
  | SWAP c q => cases h; exact emits_plain2 "swap" c q
  | CZ c q => cases h; exact emits_plain2 "cz" c q
  | CCX c d q => cases h; exact emits_plain3 "ccx" c d q

theorem emits_instrs {env : QasmEnv} : ∀ {l : List Instr} {t : List QTok}, instructionsToQasm3 env l = .ok t → Emits true t (l.map (instrStmt env)) := by
  intro l
  induction l with
  | nil => intro t h; cases h; exact Emits.nil
  | cons i l ih =>
    intro t h
    simp only [instructionsToQasm3] at h
    obtain ⟨t1, h1, h2⟩ := (bind_ok_iff _ _ _).1 h
    obtain ⟨t2, h3, h4⟩ := (bind_ok_iff _ _ _).1 h2
    cases h4
    have := Emits.append (emits_instr h1) (ih h3)
    simpa using this

/-- The instructions that are accepted. -/
def Instr.Writable : Instr → Prop
  | .M _ a => a = .Z
  | .J _ _ => False
  | _ => True

theorem instruction_ok_iff {env : QasmEnv} {i : Instr} : (∃ t, instructionToQasm3 env i = .ok t) ↔ i.Writable := by
  cases i with
  | M t a =>
    simp only [instructionToQasm3, Instr.Writable]
    by_cases h : a = .Z <;> simp [h]
  | J t θ => simp [instructionToQasm3, Instr.Writable]
  | _ => simp [instructionToQasm3, Instr.Writable]

theorem instruction_error {env : QasmEnv} {i : Instr} {e : PyErr} (h : instructionToQasm3 env i = .error e) : e = .valueError := by
  cases i with
  | M t a =>
    simp only [instructionToQasm3] at h
    split at h <;> cases h
    rfl
  | J t θ => cases h; rfl
  | _ => cases h

theorem instructions_result (env : QasmEnv) : ∀ l : List Instr,
    if ∀ i ∈ l, i.Writable then ∃ t, instructionsToQasm3 env l = .ok t else instructionsToQasm3 env l = .error .valueError := by
  intro l
  induction l with
  | nil => simp [instructionsToQasm3]
  | cons i l ih =>
    by_cases hi : i.Writable
    · obtain ⟨t, ht⟩ := (instruction_ok_iff (env := env)).2 hi
      by_cases hl : ∀ i ∈ l, i.Writable
      · rw [if_pos hl] at ih
        obtain ⟨t', ht'⟩ := ih
        rw [if_pos (by simpa using ⟨hi, hl⟩)]
        exact ⟨t ++ .semi :: t', by simp only [instructionsToQasm3, ht, ht', bind, Except.bind]; rfl⟩
      · rw [if_neg hl] at ih
        rw [if_neg (by simpa [hi] using hl)]
        simp only [instructionsToQasm3, ht, ih, bind, Except.bind]
    · rw [if_neg (by simp [hi])]
      cases h : instructionToQasm3 env i with
      | ok t => exact absurd (instruction_ok_iff.1 ⟨t, h⟩) hi
      | error e => simp only [instructionsToQasm3, h, bind, Except.bind, instruction_error h]

/-! ### The run -/

/-- The qubits of a gate. -/
def Instr.ops : Instr → List ℕ
  | .CCX c d t => [c, d, t]
  | .RZZ c t _ | .CNOT c t | .SWAP c t | .CZ c t => [c, t]
  | .H t | .S t | .X t | .Y t | .Z t | .I t | .M t _ | .RX t _ | .RY t _ | .RZ t _ | .J t _ => [t]

theorem stdGate_instr (env : QasmEnv) {i : Instr} (hw : i.Writable) (hg : i.isGate) (hz : i.NotRZZ) :
    stdGate (instrCall env i) = some (printedInstr env i).gate := by
  cases i with
  | M t a => exact hg.elim
  | J t θ => exact hw.elim
  | RZZ c t θ => exact hz.elim
  | I t =>
    simp only [instrCall, stdGate_clifford (g := "id") (U := 1) rfl, printedInstr, Instr.gate, Option.some.injEq]
    funext ψ
    exact op1_one t ψ
  | H t => exact stdGate_clifford rfl t
  | S t => exact stdGate_clifford rfl t
  | X t => exact stdGate_clifford rfl t
  | Y t => exact stdGate_clifford rfl t
  | Z t => exact stdGate_clifford rfl t
  | _ => rfl

theorem instrCall_ops (env : QasmEnv) (i : Instr) : (instrCall env i).ops = i.ops := by cases i <;> rfl

theorem gate_withOutcomes (r : ℕ → Bool) (l : List ℕ) (i : Instr) (h : ∀ n ∈ i.ops, n ∉ l) (φ : QState) :
    i.gate (withOutcomes r l φ) = withOutcomes r l (i.gate φ) := by
  have hu : ∀ (t : ℕ), t ∉ l → ∀ (b : Basis) x, (∀ k ∈ l, update b t x k = r k) ↔ ∀ k ∈ l, b k = r k := by
    intro t ht b x
    refine forall₂_congr fun k hk => ?_
    rw [update_of_ne]
    rintro rfl
    exact ht hk
  cases i with
  | CCX c d t =>
    funext b
    simp only [Instr.gate, ccxOp, withOutcomes, hu t (h t (by simp [Instr.ops]))]
  | CNOT c t =>
    funext b
    simp only [Instr.gate, cnotOp, withOutcomes, hu t (h t (by simp [Instr.ops]))]
  | SWAP u v =>
    funext b
    have : (∀ k ∈ l, (b ∘ Equiv.swap u v) k = r k) ↔ ∀ k ∈ l, b k = r k := by
      refine forall₂_congr fun k hk => ?_
      rw [comp_apply, Equiv.swap_apply_of_ne_of_ne]
      · rintro rfl; exact h k (by simp [Instr.ops]) hk
      · rintro rfl; exact h k (by simp [Instr.ops]) hk
    simp only [Instr.gate, swapOp, withOutcomes, this]
  | CZ u v => exact withOutcomes_cz r l u v φ
  | RZZ c t θ =>
    funext b
    simp only [Instr.gate, rzzOp, withOutcomes]
    split <;> simp
  | I t => rfl
  | M t a => rfl
  | _ => exact withOutcomes_op1 r (h _ (by simp [Instr.ops])) _ φ

theorem NoBit.gate {n : ℕ} {φ : QState} (h : NoBit n φ) (i : Instr) (hn : n ∉ i.ops) : NoBit n (i.gate φ) := by
  cases i with
  | CCX c d t =>
    simp only [Instr.ops, List.mem_cons, List.not_mem_nil, or_false, not_or] at hn
    intro b x
    simp only [Instr.gate, ccxOp, update_of_ne (Ne.symm hn.1), update_of_ne (Ne.symm hn.2.1), update_of_ne (Ne.symm hn.2.2), update_comm hn.2.2, h (update b t _) x]
  | CNOT c t =>
    simp only [Instr.ops, List.mem_cons, List.not_mem_nil, or_false, not_or] at hn
    intro b x
    simp only [Instr.gate, cnotOp, update_of_ne (Ne.symm hn.1), update_of_ne (Ne.symm hn.2), update_comm hn.2, h (update b t _) x]
  | SWAP u v =>
    simp only [Instr.ops, List.mem_cons, List.not_mem_nil, or_false, not_or] at hn
    intro b x
    have e : update b n x ∘ Equiv.swap u v = update (b ∘ Equiv.swap u v) n x := by
      funext k
      by_cases hk : k = n
      · subst hk
        rw [comp_apply, Equiv.swap_apply_of_ne_of_ne hn.1 hn.2, update_self, update_self]
      · rw [comp_apply, update_of_ne hk, comp_apply, update_of_ne]
        intro hc
        apply hk
        rw [← Equiv.swap_apply_of_ne_of_ne hn.1 hn.2] at hc
        exact (Equiv.swap u v).injective hc
    simp only [Instr.gate, swapOp, e, h _ x]
  | CZ u v =>
    simp only [Instr.ops, List.mem_cons, List.not_mem_nil, or_false, not_or] at hn
    intro b x
    simp only [Instr.gate, cz, update_of_ne (Ne.symm hn.1), update_of_ne (Ne.symm hn.2), h b x]
  | RZZ c t θ =>
    simp only [Instr.ops, List.mem_cons, List.not_mem_nil, or_false, not_or] at hn
    intro b x
    simp only [Instr.gate, rzzOp, update_of_ne (Ne.symm hn.1), update_of_ne (Ne.symm hn.2), h b x]
  | I t => exact h
  | M t a => exact h
  | _ => exact h.op1 _ (by rintro rfl; simp [Instr.ops] at hn)

theorem printedInstr_ops (env : QasmEnv) (i : Instr) : (printedInstr env i).ops = i.ops := by cases i <;> rfl
theorem printedInstr_isGate (env : QasmEnv) {i : Instr} (h : i.isGate) : (printedInstr env i).isGate := by cases i <;> trivial

theorem semInstrs_gate {o : ℕ → Bool} {k : ℕ} {i : Instr} (h : i.isGate) (l : List Instr) (ψ : QState) :
    semInstrs o k (i :: l) ψ = semInstrs o k l (i.gate ψ) := by
  cases i <;> first | rfl | exact h.elim

theorem instrOk_ops {s : Finset ℕ} {i : Instr} (h : Circuit.instrOk s i = true) (hz : i.NotRZZ) : i.ops.Nodup ∧ ∀ n ∈ i.ops, n ∈ s := by
  cases i with
  | RZZ c t θ => exact hz.elim
  | _ => simp_all [Circuit.instrOk, Instr.ops]

theorem gate_smul_outcomes (i : Instr) (c : ℂ) (φ : QState) : i.gate (c • φ) = c • i.gate φ := by
  cases i <;> first
    | exact op1_smul _ _ _ _
    | exact cz_smul _ _ _ _
    | rfl
    | (funext b; simp only [Instr.gate, rzzOp, Pi.smul_apply, smul_eq_mul]; ring)

theorem after_gate {i : Instr} (h : i.isGate) (s : Finset ℕ) : i.after s = s := by cases i <;> first | rfl | exact h.elim

/-- All the instructions. -/
theorem run_instrs (env : QasmEnv) (o r : ℕ → Bool) (w : ℕ) : ∀ (l : List Instr) (k : ℕ) (meas : List ℕ) (act : Finset ℕ) (m : QMach) (φ : QState),
    Circuit.listOk act l → (∀ i ∈ l, i.Writable ∧ i.NotRZZ) → (∀ n ∈ act, n < w ∧ n ∉ meas) →
    (∀ j n, (circMeasured l)[j]? = some n → o (k + j) = r n) → m.qubits = Finset.range w → (circMeasured l ≠ [] → m.bits = Finset.range w) →
    m.count = k → (∀ n ∈ meas, NoBit n φ) → (∃ c : ℂ, ‖c‖ = 1 ∧ m.state = c • withOutcomes r meas φ) →
    ∃ m', m.run o (l.map (instrStmt env)) = some m' ∧ m'.qubits = m.qubits ∧ m'.bits = m.bits ∧
      (∀ n ∈ circMeasured l, m'.val n = some (r n)) ∧ (∀ n, n ∉ circMeasured l → m'.val n = m.val n) ∧
      (∀ n ∈ meas ++ circMeasured l, NoBit n (semInstrs o k (l.map (printedInstr env)) φ)) ∧
      ∃ c : ℂ, ‖c‖ = 1 ∧ m'.state = c • withOutcomes r (meas ++ circMeasured l) (semInstrs o k (l.map (printedInstr env)) φ) := by
  intro l
  induction l with
  | nil =>
    intro k meas act m φ _ _ _ _ _ _ _ hnb hst
    exact ⟨m, rfl, rfl, rfl, by simp [circMeasured], fun _ _ => rfl, by simpa [circMeasured, semInstrs] using hnb, by simpa [circMeasured, semInstrs] using hst⟩
  | cons i l ih =>
    intro k meas act m φ hok hw hact hr hq hb hk hnb hst
    obtain ⟨hi, hl⟩ := hok
    obtain ⟨c, hc, hst⟩ := hst
    obtain ⟨hiw, hiz⟩ := hw i (by simp)
    obtain ⟨hnd, hops⟩ := instrOk_ops hi hiz
    by_cases hg : i.isGate
    · have hcm : circMeasured (i :: l) = circMeasured l := by cases i <;> first | rfl | exact hg.elim
      rw [hcm] at hr hb
      have hstmt : instrStmt env i = .call (instrCall env i) := by cases i <;> first | rfl | exact hg.elim
      have hstep : m.step o (instrStmt env i) = some { m with state := (printedInstr env i).gate m.state } := by
        rw [hstmt]
        simp only [QMach.step, QMach.call, instrCall_ops, stdGate_instr env hiw hg hiz]
        rw [if_pos ⟨hnd, fun n hn => by rw [hq, Finset.mem_range]; exact (hact n (hops n hn)).1⟩]
        rfl
      rw [after_gate hg] at hl
      obtain ⟨m', h1, h2, h3, h4, h5, h6, h7⟩ := ih k meas act { m with state := (printedInstr env i).gate m.state } ((printedInstr env i).gate φ)
        hl (fun j hj => hw j (by simp [hj])) hact hr hq hb hk
        (fun n hn => (hnb n hn).gate _ (by rw [printedInstr_ops]; exact fun hn' => (hact n (hops n hn')).2 hn))
        ⟨c, hc, by
          dsimp only
          rw [hst, gate_smul_outcomes, gate_withOutcomes]
          intro n hn
          rw [printedInstr_ops] at hn
          exact (hact n (hops n hn)).2⟩
      rw [hcm, List.map_cons, List.map_cons, semInstrs_gate (printedInstr_isGate env hg)]
      refine ⟨m', ?_, h2, h3, h4, h5, h6, h7⟩
      simp only [QMach.run, hstep, Option.bind_some, h1]
    · cases i <;> first | exact absurd trivial hg | skip
      rename_i t a
      have ha : a = .Z := hiw
      subst ha
      have hcm : circMeasured (.M t .Z :: l) = t :: circMeasured l := rfl
      rw [hcm] at hr hb
      have ht : t ∈ act := hops t (by simp [Instr.ops])
      obtain ⟨htw, htm⟩ := hact t ht
      have hrt : o k = r t := hr 0 t rfl
      have hbits := hb (by simp)
      have hnd := (circMeasured_nodup hl).2
      have htl : t ∉ circMeasured l := fun h => by simpa [Instr.after] using hnd t h
      let m1 : QMach := { m with
        val := update m.val t (some (o m.count))
        count := m.count + 1
        state := prep t (basisKet (o m.count)) (projOut t (basisKet (o m.count)) m.state) }
      have hstep : m.step o (instrStmt env (.M t .Z)) = some m1 := by
        simp only [instrStmt, QMach.step, hq, hbits, Finset.mem_range, htw, and_self, if_true, m1]
      obtain ⟨d, hd, hmat⟩ := bra_basisKet (r t)
      obtain ⟨m', h1, h2, h3, h4, h5, h6, h7⟩ := ih (k + 1) (meas ++ [t]) (act.erase t) m1
        (projOut t (measVec (.pauli ⟨.Z, .plus⟩) (o k)) φ) hl (fun j hj => hw j (by simp [hj]))
        (fun n hn => by
          rw [Finset.mem_erase] at hn
          obtain ⟨h1, h2⟩ := hact n hn.2
          exact ⟨h1, by simp [h2, hn.1]⟩)
        (fun j n hj => by rw [add_right_comm]; exact hr (j + 1) n (by simpa using hj))
        hq (fun _ => hbits) (by simp [m1, hk])
        (fun n hn => by
          rw [List.mem_append, List.mem_singleton] at hn
          by_cases hnt : n = t
          · subst hnt; intro b x; simp [projOut]
          · rw [projOut_eq_op1]; exact (hnb n (hn.resolve_right hnt)).op1 _ (Ne.symm hnt))
        ⟨d * c, by simp [hd, hc], by
          simp only [m1, hk, hrt, hst, projOut_smul, prep_smul, withOutcomes_snoc]
          rw [projOut_eq_op1, projOut_eq_op1, withOutcomes_op1 r htm, hmat, op1_mat_smul, withOutcomes_smul, prep_smul, smul_smul, mul_comm]⟩
      have e : meas ++ [t] ++ circMeasured l = meas ++ circMeasured (.M t .Z :: l) := by simp [hcm]
      rw [e] at h6 h7
      refine ⟨m', ?_, h2, h3, ?_, ?_, h6, h7⟩
      · simp only [List.map_cons, QMach.run, hstep, Option.bind_some, h1]
      · intro n hn
        rw [hcm, List.mem_cons] at hn
        rcases hn with rfl | hn
        · rw [h5 n htl]; simp [m1, hk, hrt]
        · exact h4 n hn
      · intro n hn
        rw [hcm, List.mem_cons, not_or] at hn
        rw [h5 n hn.2]
        simp [m1, hn.1]

end Graphix
