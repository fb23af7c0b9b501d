import Verif.Proofs.Qasm
import Verif.Proofs.NeverZero
import Verif.Proofs.StatevecAbs
import Verif.Props.Simulator

/-! # Runs of the program written for a pattern -/

namespace Graphix

open Function
open scoped Classical

/-! ### The commands that are written -/

/-- The measurement with the angle that is written. -/
noncomputable def printedBloch (env : QasmEnv) (b : BlochMeasurement) : BlochMeasurement :=
  ⟨if b.angle = 0 then 0 else match b.plane with
    | .YZ => printedAngle env b.angle
    | _ => -printedAngle env (-b.angle), b.plane⟩

/-- The command with the angle that is written. -/
noncomputable def printedCmd (env : QasmEnv) : Command → Command
  | .M n m s t => .M n (.bloch (printedBloch env m.toBloch)) s t
  | c => c

theorem measured_printedCmd (env : QasmEnv) (c : Command) : (printedCmd env c).measured? = c.measured? := by cases c <;> rfl
theorem prepared_printedCmd (env : QasmEnv) (c : Command) : (printedCmd env c).prepared? = c.prepared? := by cases c <;> rfl

/-- The statements of a preparation. -/
noncomputable def stateStmts (n : ℕ) (s : PlanarState) : List QStmt := if s = PlanarState.zeroState then [] else [.call ⟨"h", none, [n]⟩]

/-- The statements of a rotation. -/
noncomputable def rotStmts (env : QasmEnv) (n : ℕ) (b : BlochMeasurement) : List QStmt :=
  (if b.plane = .XY then [.call ⟨"h", none, [n]⟩] else []) ++
  if b.angle ≠ 0 then [match b.plane with
      | .XY => .call ⟨"rx", some (printedAngle env (-b.angle) * Real.pi), [n]⟩
      | .XZ => .call ⟨"ry", some (printedAngle env (-b.angle) * Real.pi), [n]⟩
      | .YZ => .call ⟨"rx", some (printedAngle env b.angle * Real.pi), [n]⟩]
  else []

/-- The statements of a command. -/
noncomputable def cmdStmts (env : QasmEnv) : Command → List QStmt
  | .N n s => .qubit n :: stateStmts n s
  | .E u v => [.call ⟨"cz", none, [u, v]⟩]
  | .M n m s t => domainStmts env s "x" n ++ domainStmts env t "z" n ++ rotStmts env n m.toBloch ++ [.bit n] ++ [.measure n n]
  | .X n d => domainStmts env d "x" n
  | .Z n d => domainStmts env d "z" n
  | .C n c => c.qasm3.map fun g => .call ⟨g, none, [n]⟩
  | .S _ _ => []
  | .T => []

theorem emits_call1 (g : String) (n : ℕ) : Emits false [.name g, .q n, .semi] [.call ⟨g, none, [n]⟩] :=
  Emits.stmt fun _ => .call (.plain (.one rfl))

theorem emits_callArg (env : QasmEnv) (g : String) (a : ℝ) (n : ℕ) :
    Emits false ([.name g, .lpar] ++ angleToQasm3 env a ++ [.rpar, .q n, .semi]) [.call ⟨g, some (printedAngle env a * Real.pi), [n]⟩] := by
  refine Emits.stmt fun rest => ?_
  have h := qExpr_angle env a (.q n :: .semi :: rest)
  simp only [List.cons_append, List.nil_append, List.append_assoc]
  exact .call (.arg h (.one rfl))

theorem emits_state {n : ℕ} {s : PlanarState} {t : List QTok} (h : stateToQasm3 n s = .ok t) : Emits false t (stateStmts n s) := by
  unfold stateToQasm3 at h
  unfold stateStmts
  split at h
  · rename_i h0
    cases h
    rw [if_pos h0]
    exact Emits.nil
  · rename_i h0
    rw [if_neg h0]
    split at h
    · cases h
      exact emits_call1 "h" n
    · exact absurd h (by simp)

theorem emits_rot (env : QasmEnv) (n : ℕ) (b : BlochMeasurement) : Emits false (rotationToQasm3 env n b) (rotStmts env n b) := by
  unfold rotationToQasm3 rotStmts
  refine Emits.append ?_ ?_
  · split
    · exact emits_call1 "h" n
    · exact Emits.nil
  · split
    · obtain ⟨a, p⟩ := b
      cases p
      · exact emits_callArg env "rx" _ n
      · exact emits_callArg env "rx" _ n
      · exact emits_callArg env "ry" _ n
    · exact Emits.nil

theorem emits_clifford (n : ℕ) (l : List String) :
    Emits false (l.flatMap fun op => [.name op, .q n, .semi]) (l.map fun g => .call ⟨g, none, [n]⟩) := by
  induction l with
  | nil => exact Emits.nil
  | cons g l ih => exact Emits.append (emits_call1 g n) ih

theorem emits_cmd {env : QasmEnv} {c : Command} {t : List QTok} (h : commandToQasm3 env c = .ok t) : Emits false t (cmdStmts env c) := by
  cases c with
  | N n s =>
    simp only [commandToQasm3] at h
    obtain ⟨t', h1, h2⟩ := (bind_ok_iff _ _ _).1 h
    cases h2
    exact Emits.append (t := [.qubit, .q n, .semi]) (S := [.qubit n]) (Emits.stmt fun _ => .qubit) (emits_state h1)
  | E u v => cases h; exact Emits.stmt fun _ => .call (.plain (.more rfl (.one rfl)))
  | M n m s t =>
    cases h
    refine Emits.append (Emits.append (Emits.append (Emits.append (emits_domain _ _ _ _) (emits_domain _ _ _ _)) (emits_rot _ _ _)) ?_) ?_
    · exact Emits.stmt fun _ => .bit
    · exact Emits.stmt fun _ => .measure rfl rfl
  | X n d => cases h; exact emits_domain _ _ _ _
  | Z n d => cases h; exact emits_domain _ _ _ _
  | C n c => cases h; exact emits_clifford _ _
  | S n d => exact absurd h (by simp [commandToQasm3])
  | T => exact absurd h (by simp [commandToQasm3])

theorem emits_cmds {env : QasmEnv} : ∀ {l : List Command} {t : List QTok}, commandsToQasm3 env l = .ok t →
    Emits false t (l.flatMap (cmdStmts env)) := by
  intro l
  induction l with
  | nil => intro t h; cases h; exact Emits.nil
  | cons c l ih =>
    intro t h
    simp only [commandsToQasm3] at h
    obtain ⟨t1, h1, h2⟩ := (bind_ok_iff _ _ _).1 h
    obtain ⟨t2, h3, h4⟩ := (bind_ok_iff _ _ _).1 h2
    cases h4
    exact Emits.append (emits_cmd h1) (ih h3)

theorem command_exported {env : QasmEnv} {c : Command} (h : c.Exportable) : ∃ t, commandToQasm3 env c = .ok t := by
  cases c with
  | N n s =>
    simp only [commandToQasm3, stateToQasm3]
    rcases h with h | h
    · rw [if_pos h]; exact ⟨_, rfl⟩
    · by_cases h0 : s = PlanarState.zeroState
      · rw [if_pos h0]; exact ⟨_, rfl⟩
      · rw [if_neg h0, if_pos h]; exact ⟨_, rfl⟩
  | S n d => exact h.elim
  | T => exact h.elim
  | _ => exact ⟨_, rfl⟩

theorem commands_exported {env : QasmEnv} : ∀ {l : List Command}, (∀ c ∈ l, c.Exportable) → ∃ t, commandsToQasm3 env l = .ok t := by
  intro l
  induction l with
  | nil => intro _; exact ⟨_, rfl⟩
  | cons c l ih =>
    intro h
    obtain ⟨t, ht⟩ := command_exported (env := env) (h c (by simp))
    obtain ⟨t', ht'⟩ := ih fun c hc => h c (by simp [hc])
    exact ⟨t ++ t', by simp only [commandsToQasm3, ht, ht']; rfl⟩

/-! ### The run -/

theorem run_state {o : ℕ → Bool} {n : ℕ} {s : PlanarState} (hs : s = PlanarState.zeroState ∨ s = PlanarState.plus) {m : QMach} {ψ : QState}
    (hn : n ∈ m.qubits) (hψ : NoBit n ψ) (hm : m.state = prep n (basisKet false) ψ) :
    m.run o (stateStmts n s) = some { m with state := prep n s.vec ψ } := by
  unfold stateStmts
  split
  · rename_i h0
    have : prep n s.vec ψ = m.state := by
      rw [hm, h0]
      funext b
      cases hb : b n <;> simp [prep, basisKet, hb, PlanarState.vec, PlanarState.zeroState, planarState]
    rw [this]; rfl
  · rename_i h0
    have h1 : s = PlanarState.plus := hs.resolve_left h0
    apply run_one
    simp only [QMach.step, call_one (stdGate_h n) hn, Option.some.injEq]
    congr 1
    rw [hm, h1]
    funext b
    simp only [op1, prep, basisKet, update_self, plus_vec, hψ b]
    cases hb : b n <;> simp [Ops.H, mat2]

theorem run_call1 {o : ℕ → Bool} {g : String} {arg : Option ℝ} {n : ℕ} {U : Mat2} {m : QMach} (h : stdGate ⟨g, arg, [n]⟩ = some (op1 U n))
    (hn : n ∈ m.qubits) : m.run o [.call ⟨g, arg, [n]⟩] = some { m with state := op1 U n m.state } := run_one (call_one h hn)

theorem run_rot {env : QasmEnv} (o : ℕ → Bool) (n : ℕ) (b : BlochMeasurement) : ∃ U : Mat2,
    (∀ x, MatPhaseEq (bra (basisKet x) * U) (bra (measVec (.bloch (printedBloch env b)) x))) ∧
    ∀ m : QMach, n ∈ m.qubits → m.run o (rotStmts env n b) = some { m with state := op1 U n m.state } := by
  obtain ⟨a, p⟩ := b
  unfold rotStmts
  cases p
  · by_cases ha : a = 0
    · refine ⟨Ops.H, fun x => ?_, fun m hn => ?_⟩
      · have := bra_rot_XY 0 x
        rw [neg_zero, rot_zero, Matrix.one_mul] at this
        simpa [printedBloch, ha] using this
      · simp only [if_true, ha, ne_eq, not_true_eq_false, if_false, List.append_nil]
        exact run_one (call_one (stdGate_h n) hn)
    · refine ⟨rot Ops.X (printedAngle env (-a)) * Ops.H, fun x => ?_, fun m hn => ?_⟩
      · have := bra_rot_XY (-printedAngle env (-a)) x
        rw [neg_neg] at this
        simpa [printedBloch, ha] using this
      · simp only [if_true, ne_eq, ha, not_false_eq_true]
        refine run_append_some (run_one (call_one (stdGate_h n) hn)) ?_
        rw [run_call1 (m := { m with state := op1 Ops.H n m.state }) (stdGate_rx _ n) hn]
        simp only [op1_mul]
  · by_cases ha : a = 0
    · refine ⟨1, fun x => ?_, fun m hn => ?_⟩
      · have := bra_rot_YZ 0 x
        rw [rot_zero] at this
        simpa [printedBloch, ha] using this
      · simp [ha, QMach.run, op1_one]
    · refine ⟨rot Ops.X (printedAngle env a), fun x => ?_, fun m hn => ?_⟩
      · have := bra_rot_YZ (printedAngle env a) x
        simpa [printedBloch, ha] using this
      · simp only [reduceCtorEq, if_false, ne_eq, ha, not_false_eq_true, if_true, List.nil_append]
        exact run_one (call_one (stdGate_rx _ n) hn)
  · by_cases ha : a = 0
    · refine ⟨1, fun x => ?_, fun m hn => ?_⟩
      · have := bra_rot_XZ 0 x
        rw [neg_zero, rot_zero] at this
        simpa [printedBloch, ha] using this
      · simp [ha, QMach.run, op1_one]
    · refine ⟨rot Ops.Y (printedAngle env (-a)), fun x => ?_, fun m hn => ?_⟩
      · have := bra_rot_XZ (-printedAngle env (-a)) x
        rw [neg_neg] at this
        simpa [printedBloch, ha] using this
      · simp only [reduceCtorEq, if_false, ne_eq, ha, not_false_eq_true, if_true, List.nil_append]
        exact run_one (call_one (stdGate_ry _ n) hn)

theorem run_clifford (o : ℕ → Bool) (n : ℕ) : ∀ {l : List String} {ms : List Mat2} {m : QMach}, l.mapM qasm3Gate = some ms → n ∈ m.qubits →
    m.run o (l.map fun g => .call ⟨g, none, [n]⟩) = some { m with state := op1 (matProd ms.reverse) n m.state } := by
  intro l
  induction l with
  | nil =>
    intro ms m h hn
    simp only [List.mapM_nil, Option.pure_def, Option.some.injEq] at h
    subst h
    simp [QMach.run, matProd, op1_one]
  | cons g l ih =>
    intro ms m h hn
    rw [List.mapM_cons] at h
    cases hg : qasm3Gate g with
    | none => simp [hg] at h
    | some U =>
      cases hl : l.mapM qasm3Gate with
      | none => simp [hg, hl] at h
      | some ms' =>
        simp only [hg, hl, Option.bind_eq_bind, Option.bind_some, Option.pure_def, Option.some.injEq] at h
        subst h
        rw [List.map_cons, ← List.singleton_append]
        refine run_append_some (run_one (call_one (stdGate_clifford hg n) hn)) ?_
        rw [ih hl (m := { m with state := op1 U n m.state }) hn]
        simp only [op1_mul]
        congr 3
        unfold matProd
        rw [List.reverse_cons, List.foldr_append]
        simp only [List.foldr_cons, List.foldr_nil, Matrix.mul_one]
        clear ih hl hg
        generalize ms'.reverse = k
        induction k with
        | nil => simp
        | cons a k ih => simp [ih, Matrix.mul_assoc]

/-- The state of the run after the commands `pre`. -/
structure QInv (r : ℕ → Bool) (inputs : List ℕ) (pre : List Command) (m : QMach) (φ : QState) : Prop where
  qubits : m.qubits = (introduced inputs pre).toFinset
  bits : m.bits = (measuredIn pre).toFinset
  val : ∀ n ∈ measuredIn pre, m.val n = some (r n)
  count : m.count = (measuredIn pre).length
  nobit : ∀ n, n ∉ introduced inputs pre → NoBit n φ
  gone : ∀ n, n ∈ measuredIn pre → NoBit n φ
  state : ∃ c : ℂ, ‖c‖ = 1 ∧ m.state = c • withOutcomes r (measuredIn pre) φ

theorem mentions_introduced {inputs : List ℕ} {pre : List Command} (hpre : Runnable inputs pre) {c : Command} (hc : Allowed inputs pre c) {n : ℕ}
    (hn : n ∈ c.mentions) : n ∈ introduced inputs (pre ++ [c]) := by
  have hsub := hpre.measured_sub
  rw [introduced_append]
  cases c with
  | N k s => simp only [Command.mentions, Finset.mem_singleton] at hn; subst hn; simp [Command.prepared?]
  | M k m s t =>
    simp only [Command.mentions, Finset.mem_union, Finset.mem_singleton] at hn
    obtain ⟨h1, h2, h3⟩ := hc
    refine List.mem_append_left _ ?_
    rcases hn with (rfl | hn) | hn
    · exact h1.1
    · exact hsub _ (h2 _ hn)
    · exact hsub _ (h3 _ hn)
  | E u v =>
    simp only [Command.mentions, Finset.mem_insert, Finset.mem_singleton] at hn
    refine List.mem_append_left _ ?_
    rcases hn with rfl | rfl
    · exact hc.1.1
    · exact hc.2.1
  | C k c =>
    simp only [Command.mentions, Finset.mem_singleton] at hn; subst hn
    exact List.mem_append_left _ hc.1
  | X k d =>
    simp only [Command.mentions, Finset.mem_union, Finset.mem_singleton] at hn
    refine List.mem_append_left _ ?_
    rcases hn with rfl | hn
    · exact hc.1.1
    · exact hsub _ (hc.2 _ hn)
  | Z k d =>
    simp only [Command.mentions, Finset.mem_union, Finset.mem_singleton] at hn
    refine List.mem_append_left _ ?_
    rcases hn with rfl | hn
    · exact hc.1.1
    · exact hsub _ (hc.2 _ hn)
  | S k d => simp [Command.mentions] at hn
  | T => simp [Command.mentions] at hn

theorem mentions_printed (env : QasmEnv) (c : Command) : (printedCmd env c).mentions = c.mentions := by cases c <;> rfl


theorem measured_introduced {inputs : List ℕ} {pre : List Command} {n : ℕ} (h : Live inputs pre n) : n ∉ measuredIn pre := h.2

theorem introduced_snoc_none {inputs : List ℕ} {pre : List Command} {c : Command} (h : c.prepared? = none) :
    introduced inputs (pre ++ [c]) = introduced inputs pre := by simp [introduced, List.filterMap_append, List.filterMap_cons, h]

theorem introduced_snoc_some {inputs : List ℕ} {pre : List Command} {c : Command} {n : ℕ} (h : c.prepared? = some n) :
    introduced inputs (pre ++ [c]) = introduced inputs pre ++ [n] := by simp [introduced, List.filterMap_append, List.filterMap_cons, h]

theorem measuredIn_snoc_none {pre : List Command} {c : Command} (h : c.measured? = none) :
    measuredIn (pre ++ [c]) = measuredIn pre := by simp [measuredIn, List.filterMap_append, List.filterMap_cons, h]

theorem QInv.setState {r : ℕ → Bool} {inputs : List ℕ} {pre : List Command} {m : QMach} {φ φ' ψ : QState} (h : QInv r inputs pre m φ) {c : Command}
    (hp : c.prepared? = none) (hm : c.measured? = none) (hnob : ∀ n, n ∉ introduced inputs (pre ++ [c]) → NoBit n φ')
    (hgone : ∀ n, n ∈ measuredIn (pre ++ [c]) → NoBit n φ')
    (hst : ∃ k : ℂ, ‖k‖ = 1 ∧ ψ = k • withOutcomes r (measuredIn (pre ++ [c])) φ') :
    QInv r inputs (pre ++ [c]) { m with state := ψ } φ' :=
  ⟨by rw [introduced_snoc_none hp]; exact h.qubits, by rw [measuredIn_snoc_none hm]; exact h.bits, by rw [measuredIn_snoc_none hm]; exact h.val,
    by rw [measuredIn_snoc_none hm]; exact h.count, hnob, hgone, hst⟩

/-- The corrections that are in the domain are read from the bits. -/
theorem QInv.domain {r : ℕ → Bool} {inputs : List ℕ} {pre : List Command} {m : QMach} {φ : QState} (h : QInv r inputs pre m φ) {d : Finset ℕ}
    (hd : ∀ k ∈ d, k ∈ measuredIn pre) : ∀ k ∈ d, k ∈ m.bits ∧ m.val k = some (r k) := fun k hk =>
  ⟨by rw [h.bits]; simpa using hd k hk, h.val k (hd k hk)⟩

theorem QInv.live {r : ℕ → Bool} {inputs : List ℕ} {pre : List Command} {m : QMach} {φ : QState} (h : QInv r inputs pre m φ) {n : ℕ}
    (hn : Live inputs pre n) : n ∈ m.qubits := by rw [h.qubits]; simpa using hn.1

theorem NoBit.projOut_self (n : ℕ) (v : Bool → ℂ) (ψ : QState) : NoBit n (projOut n v ψ) := by
  intro b x
  simp [projOut]

/-- The state does not depend on the measured nodes. -/
theorem NoBit.measured {inputs : List ℕ} {pre : List Command} (hpre : Runnable inputs pre) {c : Command} (hc : Allowed inputs pre c) {φ : QState}
    (h : ∀ n, n ∈ measuredIn pre → NoBit n φ) (r : ℕ → Bool) (env : QasmEnv) (n : ℕ) (hn : n ∈ measuredIn (pre ++ [c])) :
    NoBit n ((printedCmd env c).sem r φ) := by
  have hne : ∀ {k}, Live inputs pre k → n ∈ measuredIn pre → k ≠ n := by
    rintro k hk hn rfl
    exact hk.2 hn
  cases c with
  | N k s =>
    rw [measuredIn_snoc_none rfl] at hn
    have hm : k ≠ n := by rintro rfl; exact hc (hpre.measured_sub _ hn)
    intro b x
    simp only [printedCmd, Command.sem, prep, update_of_ne hm, h n hn b x]
  | M k me s t =>
    have hmeas : measuredIn (pre ++ [.M k me s t]) = measuredIn pre ++ [k] := by
      simp [measuredIn_append]; rfl
    rw [hmeas, List.mem_append, List.mem_singleton] at hn
    by_cases hk : n = k
    · subst hk; exact NoBit.projOut_self _ _ _
    · have hn := hn.resolve_right hk
      have hm := hne hc.1 hn
      simp only [printedCmd, Command.sem, projOut_eq_op1]
      exact (((h n hn).op1 _ hm).op1 _ hm).op1 _ hm
  | E u v =>
    rw [measuredIn_snoc_none rfl] at hn
    intro b x
    simp only [printedCmd, Command.sem, cz, update_of_ne (hne hc.1 hn), update_of_ne (hne hc.2 hn), h n hn b x]
  | C k c => rw [measuredIn_snoc_none rfl] at hn; exact (h n hn).op1 _ (hne hc hn)
  | X k d => rw [measuredIn_snoc_none rfl] at hn; exact (h n hn).op1 _ (hne hc.1 hn)
  | Z k d => rw [measuredIn_snoc_none rfl] at hn; exact (h n hn).op1 _ (hne hc.1 hn)
  | S _ _ => rw [measuredIn_snoc_none rfl] at hn; exact h n hn
  | T => rw [measuredIn_snoc_none rfl] at hn; exact h n hn

set_option maxHeartbeats 1000000 in
theorem QInv.step {env : QasmEnv} (henv : env.Valid) {o r : ℕ → Bool} {inputs : List ℕ} {pre : List Command} {m : QMach} {φ : QState}
    (h : QInv r inputs pre m φ) (hpre : Runnable inputs pre) {c : Command} (hc : Allowed inputs pre c) (he : c.Exportable) (hE : ∀ u, c ≠ .E u u)
    (hr : ∀ n, c.measured? = some n → o (measuredIn pre).length = r n) :
    ∃ m', m.run o (cmdStmts env c) = some m' ∧ QInv r inputs (pre ++ [c]) m' ((printedCmd env c).sem r φ) := by
  obtain ⟨k, hk, hst⟩ := h.state
  have hnob : ∀ n, n ∉ introduced inputs (pre ++ [c]) → NoBit n ((printedCmd env c).sem r φ) := by
    intro n hn
    refine (h.nobit n fun hn' => hn ?_).sem r ?_
    · rw [introduced_append]; exact List.mem_append_left _ hn'
    · rw [mentions_printed]; exact fun hm => hn (mentions_introduced hpre hc hm)
  have hgone : ∀ n, n ∈ measuredIn (pre ++ [c]) → NoBit n ((printedCmd env c).sem r φ) := NoBit.measured hpre hc h.gone r env
  cases c with
  | N n s =>
    have hc' : n ∉ introduced inputs pre := hc
    have hn : n ∉ m.qubits := by rw [h.qubits]; simpa using hc'
    have hnm : n ∉ measuredIn pre := fun hm => hc (hpre.measured_sub _ hm)
    let m1 : QMach := { m with qubits := insert n m.qubits, state := prep n (basisKet false) m.state }
    have h1 : m.run o [.qubit n] = some m1 := run_one (by simp [QMach.step, hn, m1])
    have hnb : NoBit n m.state := by
      rw [hst]
      intro b x
      have e : (∀ j ∈ measuredIn pre, update b n x j = r j) ↔ ∀ j ∈ measuredIn pre, b j = r j := by
        refine forall₂_congr fun j hj => ?_
        rw [update_of_ne]
        rintro rfl
        exact hnm hj
      simp only [Pi.smul_apply, withOutcomes, e, h.nobit n hc b x]
    have h2 := run_state (o := o) he (m := m1) (ψ := m.state) (by simp [m1]) hnb rfl
    refine ⟨_, run_append_some (S := [.qubit n]) h1 h2, ?_, ?_, ?_, ?_, hnob, hgone, k, hk, ?_⟩
    · rw [introduced_snoc_some (n := n) rfl, List.toFinset_append, ← h.qubits]
      ext j
      simp [m1, or_comm]
    · rw [measuredIn_snoc_none rfl]; exact h.bits
    · rw [measuredIn_snoc_none rfl]; exact h.val
    · rw [measuredIn_snoc_none rfl]; exact h.count
    · simp only [m1, printedCmd, Command.sem, hst, prep_smul, withOutcomes_prep]
      rw [measuredIn_snoc_none rfl]
  | E u v =>
    refine ⟨{ m with state := cz u v m.state }, run_one ?_, h.setState rfl rfl hnob hgone ⟨k, hk, ?_⟩⟩
    · have hu := h.live hc.1
      have hv := h.live hc.2
      have huv : u ≠ v := by rintro rfl; exact hE u rfl
      simp [QMach.step, QMach.call, hu, hv, huv, stdGate_cz]
    · simp only [printedCmd, Command.sem, hst, cz_smul, withOutcomes_cz]
      rw [measuredIn_snoc_none rfl]
  | C n c =>
    obtain ⟨ms, hms, d, hd, hmat⟩ := C02_qasm3 c
    refine ⟨_, run_clifford o n hms (h.live hc), h.setState rfl rfl hnob hgone ⟨d * k, by simp [hd, hk], ?_⟩⟩
    · simp only [printedCmd, Command.sem, hst, hmat, op1_smul, op1_mat_smul, withOutcomes_op1 r hc.2, smul_smul]
      rw [measuredIn_snoc_none rfl, mul_comm, withOutcomes_smul, smul_smul]
  | X n d =>
    refine ⟨_, run_domain henv o (stdGate_x n) (h.live hc.1) (h.domain hc.2), h.setState rfl rfl hnob hgone ⟨k, hk, ?_⟩⟩
    · simp only [printedCmd, Command.sem, hst, op1_smul, withOutcomes_op1 r hc.1.2]
      rw [measuredIn_snoc_none rfl]
  | Z n d =>
    refine ⟨_, run_domain henv o (stdGate_z n) (h.live hc.1) (h.domain hc.2), h.setState rfl rfl hnob hgone ⟨k, hk, ?_⟩⟩
    · simp only [printedCmd, Command.sem, hst, op1_smul, withOutcomes_op1 r hc.1.2]
      rw [measuredIn_snoc_none rfl]
  | M n me s t =>
    obtain ⟨hl, hs, ht⟩ := hc
    have hn := h.live hl
    have hrn : o m.count = r n := by rw [h.count]; exact hr n rfl
    obtain ⟨U, hU, hrun⟩ := run_rot (env := env) o n me.toBloch
    obtain ⟨d1, hd1, hmat1⟩ := hU (r n)
    obtain ⟨d2, hd2, hmat2⟩ := (powX_powZ_comm (parity r s) (parity r t)).symm
    have h1 := run_domain henv o (stdGate_x n) hn (h.domain hs)
    have h2 := run_domain henv (m := { m with state := op1 (powB Ops.X (parity r s)) n m.state }) o (stdGate_z n) hn (h.domain ht)
    have h3 := hrun { m with state := op1 (powB Ops.Z (parity r t)) n (op1 (powB Ops.X (parity r s)) n m.state) } hn
    have hb : n ∉ m.bits := by rw [h.bits]; simpa using hl.2
    have hrun5 := run_append_some (run_append_some (run_append_some (run_append_some h1 h2) h3)
      (run_one (o := o) (s := .bit n) (m' := { m with
        bits := insert n m.bits
        state := op1 U n (op1 (powB Ops.Z (parity r t)) n (op1 (powB Ops.X (parity r s)) n m.state)) })
        (by simp [QMach.step, hb])))
      (run_one (o := o) (s := .measure n n) (m' := { m with
        bits := insert n m.bits
        val := update m.val n (some (o m.count))
        count := m.count + 1
        state := prep n (basisKet (o m.count)) (projOut n (basisKet (o m.count))
          (op1 U n (op1 (powB Ops.Z (parity r t)) n (op1 (powB Ops.X (parity r s)) n m.state)))) })
        (by simp [QMach.step, hn]))
    have hmeas : measuredIn (pre ++ [.M n me s t]) = measuredIn pre ++ [n] := by
      simp [measuredIn_append]; rfl
    refine ⟨_, hrun5, ?_, ?_, ?_, ?_, hnob, hgone, d1 * d2 * k, by simp [hd1, hd2, hk], ?_⟩
    · rw [introduced_snoc_none rfl]; exact h.qubits
    · rw [hmeas, List.toFinset_append, ← h.bits]
      ext j
      simp [or_comm]
    · intro j hj
      rw [hmeas, List.mem_append, List.mem_singleton] at hj
      by_cases hjn : j = n
      · subst hjn; simp [hrn]
      · simp only [update_of_ne hjn]
        exact h.val j (hj.resolve_right hjn)
    · rw [hmeas]; simp [h.count]
    · rw [hmeas, withOutcomes_snoc]
      simp only [hrn, hst, op1_smul, projOut_smul, prep_smul, withOutcomes_op1 r hl.2, projOut_eq_op1]
      simp only [printedCmd, Command.sem, projOut_eq_op1]
      simp only [op1_mul]
      have e : bra (basisKet (r n)) * (U * (powB Ops.Z (parity r t) * powB Ops.X (parity r s))) =
          (d2 * d1) • (bra (measVec (.bloch (printedBloch env me.toBloch)) (r n)) * (powB Ops.X (parity r s) * powB Ops.Z (parity r t))) := by
        rw [← Matrix.mul_assoc, hmat1, hmat2]
        simp only [Matrix.smul_mul, Matrix.mul_smul, smul_smul]
      rw [e]
      simp only [op1_mat_smul, withOutcomes_smul, prep_smul, smul_smul]
      congr 1
      ring
  | S n d => exact he.elim
  | T => exact he.elim

/-- All the commands. -/
theorem QInv.steps {env : QasmEnv} (henv : env.Valid) {o r : ℕ → Bool} {inputs : List ℕ} : ∀ (l pre : List Command) {m : QMach} {φ : QState},
    QInv r inputs pre m φ → Runnable inputs (pre ++ l) → (∀ c ∈ l, c.Exportable) → (∀ u, .E u u ∉ l) →
    (∀ k n, (measuredIn (pre ++ l))[k]? = some n → o k = r n) →
    ∃ m', m.run o (l.flatMap (cmdStmts env)) = some m' ∧ QInv r inputs (pre ++ l) m' (semCmds r (l.map (printedCmd env)) φ) := by
  intro l
  induction l with
  | nil => intro pre m φ h _ _ _ _; exact ⟨m, rfl, by rw [List.append_nil]; exact h⟩
  | cons c l ih =>
    intro pre m φ h hR he hE hr
    have e : pre ++ c :: l = (pre ++ [c]) ++ l := by simp
    obtain ⟨m1, h1, h2⟩ := h.step henv (o := o) (c := c) hR.prefix (hR pre c l rfl) (he c (by simp)) (fun u hu => hE u (by simp [hu]))
      (fun n hn => hr _ n (by
        rw [e, measuredIn_append, measuredIn_append]
        simp [hn]))
    rw [e] at hR hr
    obtain ⟨m2, h3, h4⟩ := ih (pre ++ [c]) h2 hR (fun c hc => he c (by simp [hc])) (fun u hu => hE u (by simp [hu])) hr
    refine ⟨m2, ?_, ?_⟩
    · rw [List.flatMap_cons]; exact run_append_some h1 h3
    · rw [e]; exact h4

/-! ### Inputs -/

/-- The statements of the inputs. -/
noncomputable def inputStmts (f : ℕ → PlanarState) (l : List ℕ) : List QStmt := l.flatMap fun n => .qubit n :: stateStmts n (f n)

theorem emits_inputs {st : ℕ → Option PlanarState} {f : ℕ → PlanarState} : ∀ {l : List ℕ} {t : List QTok}, (∀ n ∈ l, st n = some (f n)) →
    inputsToQasm3 st l = .ok t → Emits false t (inputStmts f l) := by
  intro l
  induction l with
  | nil => intro t _ h; cases h; exact Emits.nil
  | cons n l ih =>
    intro t hf h
    simp only [inputsToQasm3, hf n (by simp)] at h
    obtain ⟨t1, h1, h2⟩ := (bind_ok_iff _ _ _).1 h
    obtain ⟨t2, h3, h4⟩ := (bind_ok_iff _ _ _).1 h2
    obtain ⟨t3, h5, h6⟩ := (bind_ok_iff _ _ _).1 h4
    cases h1
    cases h6
    exact Emits.append (S := .qubit n :: stateStmts n (f n)) (Emits.append (t := [.qubit, .q n, .semi]) (S := [.qubit n])
      (Emits.stmt fun _ => .qubit) (emits_state h3)) (ih (fun k hk => hf k (by simp [hk])) h5)

theorem run_inputs (o : ℕ → Bool) {f : ℕ → PlanarState} : ∀ (l : List ℕ) (m : QMach), l.Nodup → (∀ n ∈ l, n ∉ m.qubits ∧ NoBit n m.state) →
    (∀ n ∈ l, f n = PlanarState.zeroState ∨ f n = PlanarState.plus) →
    m.run o (inputStmts f l) = some { m with qubits := m.qubits ∪ l.toFinset, state := fun b => prodState l (l.map f) b * m.state b } := by
  intro l
  induction l with
  | nil => intro m _ _ _; simp [inputStmts, QMach.run, prodState]
  | cons n l ih =>
    intro m hnd hm hf
    rw [List.nodup_cons] at hnd
    have h1 : m.run o [.qubit n] = some { m with qubits := insert n m.qubits, state := prep n (basisKet false) m.state } :=
      run_one (by simp [QMach.step, (hm n (by simp)).1])
    have h2 := run_state (o := o) (hf n (by simp)) (m := { m with qubits := insert n m.qubits, state := prep n (basisKet false) m.state })
      (ψ := m.state) (by simp) (hm n (by simp)).2 rfl
    have h3 := ih { m with qubits := insert n m.qubits, state := prep n (f n).vec m.state } hnd.2 (by
      intro k hk
      have hkn : n ≠ k := by rintro rfl; exact hnd.1 hk
      obtain ⟨h4, h5⟩ := hm k (by simp [hk])
      refine ⟨by simp [h4, hkn.symm], fun b x => ?_⟩
      simp only [prep, update_of_ne hkn, h5 b x]) (fun k hk => hf k (by simp [hk]))
    have h4 := run_append_some (run_append_some h1 h2) h3
    rw [inputStmts, List.flatMap_cons]
    refine h4.trans ?_
    congr 2
    · ext k; simp [or_left_comm]
    · funext b
      simp only [prodState, List.map_cons, prep]
      ring

end Graphix
