import Verif.Proofs.QasmPattern
import Verif.Props.TensorNetAgree

/-!
# Property C64: OpenQASM 3 export

The text that is written is the text of one OpenQASM 3 program, and every run of this program does what the pattern (or the circuit) does.
-/

namespace Graphix

open Function
open scoped Classical

/-! ### The text has one reading -/

theorem QQubits.unique {reg : Bool} {toks : List QTok} {l l' : List ℕ} {r r' : List QTok} (h : QQubits reg toks l r) (h' : QQubits reg toks l' r') :
    l = l' ∧ r = r' := by
  induction h generalizing l' r' with
  | one h1 =>
    cases h' with
    | one h2 => rw [h1] at h2; simp only [Option.some.injEq, Prod.mk.injEq, List.cons.injEq, true_and] at h2; simp [h2]
    | more h2 _ => rw [h1] at h2; simp at h2
  | more h1 _ ih =>
    cases h' with
    | one h2 => rw [h1] at h2; simp at h2
    | more h2 h3 =>
      rw [h1] at h2
      simp only [Option.some.injEq, Prod.mk.injEq, List.cons.injEq, true_and] at h2
      obtain ⟨rfl, rfl⟩ := h2
      obtain ⟨rfl, rfl⟩ := ih h3
      exact ⟨rfl, rfl⟩

theorem QXor.unique {reg : Bool} {toks : List QTok} {l l' : List ℕ} {r r' : List QTok} (h : QXor reg toks l r) (h' : QXor reg toks l' r') :
    l = l' ∧ r = r' := by
  induction h generalizing l' r' with
  | one h1 =>
    cases h' with
    | one h2 => rw [h1] at h2; simp only [Option.some.injEq, Prod.mk.injEq, List.cons.injEq, true_and] at h2; simp [h2]
    | more h2 _ => rw [h1] at h2; simp at h2
  | more h1 _ ih =>
    cases h' with
    | one h2 => rw [h1] at h2; simp at h2
    | more h2 h3 =>
      rw [h1] at h2
      simp only [Option.some.injEq, Prod.mk.injEq, List.cons.injEq, true_and] at h2
      obtain ⟨rfl, rfl⟩ := h2
      obtain ⟨rfl, rfl⟩ := ih h3
      exact ⟨rfl, rfl⟩

theorem QQubits.not_lpar {reg : Bool} {toks : List QTok} {l : List ℕ} {r : List QTok} : ¬ QQubits reg (.lpar :: toks) l r := by
  intro h
  cases h with
  | one h => simp [qQubit] at h
  | more h _ => simp [qQubit] at h

theorem QCalls.unique {reg : Bool} {toks : List QTok} {g g' : QCall} {r r' : List QTok} (h : QCalls reg toks g r) (h' : QCalls reg toks g' r') :
    g = g' ∧ r = r' := by
  cases h with
  | plain h =>
    cases h' with
    | plain h' => obtain ⟨rfl, rfl⟩ := h.unique h'; exact ⟨rfl, rfl⟩
    | arg _ _ => exact absurd h QQubits.not_lpar
  | arg h1 h2 =>
    cases h' with
    | plain h' => exact absurd h' QQubits.not_lpar
    | arg h3 h4 =>
      rw [h1] at h3
      simp only [Option.some.injEq, Prod.mk.injEq, List.cons.injEq, true_and] at h3
      obtain ⟨rfl, rfl⟩ := h3
      obtain ⟨rfl, rfl⟩ := h2.unique h4
      exact ⟨rfl, rfl⟩

theorem QStatement.unique {reg : Bool} {toks : List QTok} {s s' : QStmt} {r r' : List QTok} (h : QStatement reg toks s r)
    (h' : QStatement reg toks s' r') : s = s' ∧ r = r' := by
  cases h with
  | qubit => cases h' with
    | qubit => exact ⟨rfl, rfl⟩
    | call h => cases h
    | measure h _ => simp [qBit] at h
  | bit => cases h' with
    | bit => exact ⟨rfl, rfl⟩
    | call h => cases h
    | measure h _ => simp [qBit] at h
  | qubits => cases h' with
    | qubits => exact ⟨rfl, rfl⟩
    | call h => cases h
    | measure h _ => simp [qBit] at h
  | bits => cases h' with
    | bits => exact ⟨rfl, rfl⟩
    | call h => cases h
    | measure h _ => simp [qBit] at h
  | call h1 => cases h' with
    | qubit => cases h1
    | bit => cases h1
    | qubits => cases h1
    | bits => cases h1
    | call h2 => obtain ⟨rfl, rfl⟩ := h1.unique h2; exact ⟨rfl, rfl⟩
    | measure h2 _ => cases h1 <;> simp [qBit] at h2
    | cond _ _ => cases h1
  | measure h1 h2 => cases h' with
    | qubit => simp [qBit] at h1
    | bit => simp [qBit] at h1
    | qubits => simp [qBit] at h1
    | bits => simp [qBit] at h1
    | call h => cases h <;> simp [qBit] at h1
    | measure h3 h4 =>
      rw [h1] at h3
      simp only [Option.some.injEq, Prod.mk.injEq, List.cons.injEq, true_and] at h3
      obtain ⟨rfl, rfl⟩ := h3
      rw [h2] at h4
      simp only [Option.some.injEq, Prod.mk.injEq, List.cons.injEq, true_and] at h4
      obtain ⟨rfl, rfl⟩ := h4
      exact ⟨rfl, rfl⟩
    | cond _ _ => simp [qBit] at h1
  | cond h1 h2 => cases h' with
    | call h => cases h
    | measure h _ => simp [qBit] at h
    | cond h3 h4 =>
      obtain ⟨rfl, h5⟩ := h1.unique h3
      simp only [List.cons.injEq, true_and] at h5
      subst h5
      obtain ⟨rfl, h6⟩ := h2.unique h4
      simp only [List.cons.injEq, true_and] at h6
      exact ⟨rfl, h6⟩

theorem QStatements.unique {reg : Bool} {toks : List QTok} {P P' : List QStmt} (h : QStatements reg toks P) (h' : QStatements reg toks P') : P = P' := by
  induction h generalizing P' with
  | nil => cases h' with
    | nil => rfl
    | cons h _ => cases h with
      | call h => cases h
      | measure h _ => simp [qBit] at h
  | cons h1 _ ih => cases h' with
    | nil => cases h1 with
      | call h => cases h
      | measure h _ => simp [qBit] at h
    | cons h2 h3 =>
      obtain ⟨rfl, rfl⟩ := h1.unique h2
      rw [ih h3]

/-- A text is the text of one program at most. -/
theorem C64_one_reading {reg : Bool} {toks : List QTok} {P P' : List QStmt} (h : QasmText reg toks P) (h' : QasmText reg toks P') : P = P' := by
  obtain ⟨b, e, h⟩ := h
  obtain ⟨b', e', h'⟩ := h'
  have : b = b' := List.append_cancel_left (e.symm.trans e')
  subst this
  exact h.unique h'

/-! ### Patterns -/

theorem closeAngle_neg {a b : ℝ} (h : CloseAngle (-a) b) : CloseAngle a (-b) := by
  unfold CloseAngle at *
  rw [abs_neg] at h ⊢
  rw [show a - -b = -(-a - b) by ring, abs_neg]
  exact h

theorem closeCmd_printed (env : QasmEnv) (c : Command) : CloseCmd c (printedCmd env c) := by
  cases c with
  | M n m s t =>
    refine ⟨(printedBloch env m.toBloch).angle, ?_, rfl⟩
    unfold printedBloch
    dsimp only
    split
    · rename_i h0; rw [h0]; simp [CloseAngle]
    · cases m.toBloch.plane
      · exact closeAngle_neg (printedAngle_close env _)
      · exact printedAngle_close env _
      · exact closeAngle_neg (printedAngle_close env _)
  | _ => rfl

theorem forall₂_printed (env : QasmEnv) : ∀ l : List Command, List.Forall₂ CloseCmd l (l.map (printedCmd env))
  | [] => .nil
  | c :: l => .cons (closeCmd_printed env c) (forall₂_printed env l)

theorem measuredIn_printed (env : QasmEnv) (l : List Command) : measuredIn (l.map (printedCmd env)) = measuredIn l := by
  unfold measuredIn
  rw [List.filterMap_map]
  congr 1
  funext c
  exact measured_printedCmd env c

theorem introduced_printed (env : QasmEnv) (inputs : List ℕ) (l : List Command) : introduced inputs (l.map (printedCmd env)) = introduced inputs l := by
  unfold introduced
  rw [List.filterMap_map]
  congr 2
  funext c
  exact prepared_printedCmd env c

/-- The probability of the outcomes. -/
theorem stateNormSq_withOutcomes (r : ℕ → Bool) {l meas live : List ℕ} (hm : ∀ n ∈ meas, n ∈ l) (hl : ∀ n, n ∈ live ↔ n ∈ l ∧ n ∉ meas) {φ : QState}
    (hφ : ∀ n ∈ meas, NoBit n φ) : stateNormSq l (withOutcomes r meas φ) = stateNormSq live φ := by
  have hnb : ∀ (k : List ℕ) (b b' : Basis), (∀ n ∈ k, n ∈ meas) → (∀ n, n ∉ k → b n = b' n) → φ b = φ b' := by
    intro k
    induction k with
    | nil =>
      intro b b' _ h
      congr 1
      funext n
      exact h n (by simp)
    | cons n k ih =>
      intro b b' hk h
      rw [← hφ n (hk n (by simp)) b (b' n)]
      refine ih _ _ (fun j hj => hk j (by simp [hj])) fun j hj => ?_
      by_cases hjn : j = n
      · subst hjn; simp
      · rw [update_of_ne hjn]; exact h j (by simp [hj, hjn])
  unfold stateNormSq
  symm
  let T := meas.toFinset.filter fun n => r n = true
  refine Finset.sum_of_injOn (fun S => S ∪ T) ?_ ?_ ?_ ?_
  · intro S hS S' hS' h
    simp only [Finset.coe_powerset, Set.mem_preimage, Set.mem_powerset_iff, Finset.coe_subset] at hS hS'
    have hd : ∀ {S : Finset ℕ}, S ⊆ live.toFinset → ∀ n, n ∈ S ↔ n ∈ S ∪ T ∧ n ∉ meas := by
      intro S hS n
      simp only [Finset.mem_union, T, Finset.mem_filter, List.mem_toFinset]
      constructor
      · intro hn
        have := hS hn
        rw [List.mem_toFinset, hl] at this
        exact ⟨Or.inl hn, this.2⟩
      · rintro ⟨hn | hn, hn'⟩
        · exact hn
        · exact absurd hn.1 hn'
    ext n
    rw [hd hS, hd hS']
    dsimp only at h
    rw [h]
  · intro S hS
    simp only [Finset.coe_powerset, Set.mem_preimage, Set.mem_powerset_iff, Finset.coe_subset] at hS ⊢
    intro n hn
    simp only [Finset.mem_union, T, Finset.mem_filter, List.mem_toFinset] at hn ⊢
    rcases hn with hn | hn
    · have := hS hn
      rw [List.mem_toFinset, hl] at this
      exact this.1
    · exact hm n hn.1
  · intro S hS hne
    rw [Finset.mem_powerset] at hS
    by_cases h : ∀ n ∈ meas, decide (n ∈ S) = r n
    · exfalso
      apply hne
      refine ⟨S \ meas.toFinset, ?_, ?_⟩
      · simp only [Finset.coe_powerset, Set.mem_preimage, Set.mem_powerset_iff, Finset.coe_subset]
        intro n hn
        rw [Finset.mem_sdiff, List.mem_toFinset] at hn
        rw [List.mem_toFinset, hl]
        exact ⟨by simpa using hS hn.1, hn.2⟩
      · ext n
        simp only [T, Finset.mem_union, Finset.mem_sdiff, List.mem_toFinset, Finset.mem_filter]
        by_cases hn : n ∈ meas
        · have := h n hn
          simp [hn, ← this]
        · simp [hn]
    · rw [withOutcomes, if_neg h, map_zero]
  · intro S hS
    rw [Finset.mem_powerset] at hS
    have h : ∀ n ∈ meas, decide (n ∈ S ∪ T) = r n := by
      intro n hn
      have : n ∉ S := fun h => by have := hS h; rw [List.mem_toFinset, hl] at this; exact this.2 hn
      simp [T, this, hn]
    rw [withOutcomes, if_pos h]
    rw [hnb meas (fun n => decide (n ∈ S)) (fun n => decide (n ∈ S ∪ T)) (fun _ h => h) fun n hn => by simp [T, hn]]

theorem stateNormSq_phase {l : List ℕ} {ψ φ : QState} (h : PhaseEq ψ φ) : stateNormSq l ψ = stateNormSq l φ := by
  obtain ⟨c, hc, rfl⟩ := h
  unfold stateNormSq
  refine Finset.sum_congr rfl fun S _ => ?_
  rw [Pi.smul_apply, smul_eq_mul, Complex.normSq_mul, Complex.normSq_eq_norm_sq c, hc]
  ring

theorem inputs_exported {st : ℕ → Option PlanarState} {f : ℕ → PlanarState} : ∀ {l : List ℕ},
    (∀ n ∈ l, st n = some (f n) ∧ (f n = PlanarState.zeroState ∨ f n = PlanarState.plus)) → ∃ t, inputsToQasm3 st l = .ok t := by
  intro l
  induction l with
  | nil => intro _; exact ⟨_, rfl⟩
  | cons n l ih =>
    intro h
    obtain ⟨h1, h2⟩ := h n (by simp)
    obtain ⟨t, ht⟩ := ih fun k hk => h k (by simp [hk])
    have : ∃ t, stateToQasm3 n (f n) = .ok t := by
      unfold stateToQasm3
      split
      · exact ⟨_, rfl⟩
      · rename_i h0
        rw [if_pos (h2.resolve_left h0)]
        exact ⟨_, rfl⟩
    obtain ⟨t', ht'⟩ := this
    exact ⟨[.qubit, .q n, .semi] ++ t' ++ t, by simp only [inputsToQasm3, h1, ht', ht, bind, Except.bind]; rfl⟩

theorem pattern_exported (env : QasmEnv) (henv : env.Valid) (p : Pattern) (hR : Runnable p.inputs p.seq) (hi : p.inputs.Nodup)
    (he : ∀ c ∈ p.seq, c.Exportable) (hE : ∀ u, .E u u ∉ p.seq) (st : ℕ → Option PlanarState) (f : ℕ → PlanarState)
    (hf : ∀ n ∈ p.inputs, st n = some (f n) ∧ (f n = PlanarState.zeroState ∨ f n = PlanarState.plus)) :
    ∃ toks prog, patternToQasm3 env p st = .ok toks ∧ QasmText false toks prog ∧
      ∀ o : ℕ → Bool, ∃ (m : QMach) (r : ℕ → Bool), QMach.init.run o prog = some m ∧
        m.qubits = (introduced p.inputs p.seq).toFinset ∧ m.bits = (measuredIn p.seq).toFinset ∧
        (∀ k n, (measuredIn p.seq)[k]? = some n → r n = o k ∧ m.val n = some (o k)) ∧
        PhaseEq m.state (withOutcomes r (measuredIn p.seq) (semCmds r (p.seq.map (printedCmd env)) (prodState p.inputs (p.inputs.map f)))) ∧
        stateNormSq (introduced p.inputs p.seq) m.state = branchProb p.inputs (prodState p.inputs (p.inputs.map f)) (p.seq.map (printedCmd env)) r := by
  obtain ⟨t1, h1⟩ := inputs_exported hf
  obtain ⟨t2, h2⟩ := commands_exported (env := env) he
  refine ⟨qHeader ++ t1 ++ t2, inputStmts f p.inputs ++ p.seq.flatMap (cmdStmts env), ?_, ?_, ?_⟩
  · simp only [patternToQasm3, h1, h2, bind, Except.bind]
    rfl
  · refine ⟨t1 ++ t2, by simp, (Emits.append (emits_inputs (fun n hn => (hf n hn).1) h1) (emits_cmds h2)).all⟩
  · intro o
    let r : ℕ → Bool := fun n => o ((measuredIn p.seq).idxOf n)
    have hnd := hR.measured_nodup
    have hr : ∀ k n, (measuredIn p.seq)[k]? = some n → o k = r n := by
      intro k n hk
      obtain ⟨hk', rfl⟩ := List.getElem?_eq_some_iff.1 hk
      dsimp only [r]
      rw [hnd.idxOf_getElem]
    have hin := run_inputs o (f := f) p.inputs QMach.init hi (fun n _ => ⟨by simp [QMach.init], fun _ _ => rfl⟩) fun n hn => (hf n hn).2
    have h0 : QInv r p.inputs [] { QMach.init with
        qubits := QMach.init.qubits ∪ p.inputs.toFinset
        state := fun b => prodState p.inputs (p.inputs.map f) b * QMach.init.state b } (prodState p.inputs (p.inputs.map f)) := by
      refine ⟨by simp [QMach.init, introduced], by simp [QMach.init, measuredIn], by simp [measuredIn], by simp [QMach.init, measuredIn], ?_, by simp [measuredIn], 1, by simp, ?_⟩
      · intro n hn b x
        refine prodState_on _ _ _ _ fun k hk => ?_
        rw [update_of_ne]
        rintro rfl
        exact hn (by simp [introduced, hk])
      · rw [show measuredIn [] = [] from rfl, withOutcomes_nil, one_smul]
        funext b
        simp [QMach.init]
    obtain ⟨m, hm, hq⟩ := h0.steps henv (o := o) p.seq [] (by simpa using hR) he hE (by simpa using hr)
    rw [List.nil_append] at hq
    have hphase : PhaseEq m.state (withOutcomes r (measuredIn p.seq) (semCmds r (p.seq.map (printedCmd env)) (prodState p.inputs (p.inputs.map f)))) :=
      hq.state
    refine ⟨m, r, run_append_some hin hm, hq.qubits, hq.bits, fun k n hk => ⟨(hr k n hk).symm, ?_⟩, hphase, ?_⟩
    · rw [hr k n hk]
      exact hq.val n (List.mem_of_getElem? hk)
    · rw [stateNormSq_phase hphase, branchProb]
      refine stateNormSq_withOutcomes r hR.measured_sub (fun n => ?_) hq.gone
      rw [mem_liveList, Live, measuredIn_printed, introduced_printed]

/-- **C64.** The export of a runnable pattern is the text of a program. The commands that the program follows are those of the pattern, with
the angles of the measurements rounded at most to a relative error of `1e-9`.  Every run of the program ends without an error, declares the
nodes of the pattern and one bit for each measured node, stores the outcome of each measurement in the bit of its node, and ends in the
state of the pattern for these outcomes, with the same probability. -/
theorem C64_pattern (env : QasmEnv) (henv : env.Valid) (p : Pattern) (hR : Runnable p.inputs p.seq) (hi : p.inputs.Nodup)
    (he : ∀ c ∈ p.seq, c.Exportable) (hE : ∀ u, .E u u ∉ p.seq) (st : ℕ → Option PlanarState) (f : ℕ → PlanarState)
    (hf : ∀ n ∈ p.inputs, st n = some (f n) ∧ (f n = PlanarState.zeroState ∨ f n = PlanarState.plus)) :
    ∃ toks prog seq', patternToQasm3 env p st = .ok toks ∧ QasmText false toks prog ∧ List.Forall₂ CloseCmd p.seq seq' ∧
      ∀ o : ℕ → Bool, ∃ (m : QMach) (r : ℕ → Bool), QMach.init.run o prog = some m ∧
        m.qubits = (introduced p.inputs p.seq).toFinset ∧ m.bits = (measuredIn p.seq).toFinset ∧
        (∀ k n, (measuredIn p.seq)[k]? = some n → r n = o k ∧ m.val n = some (o k)) ∧
        PhaseEq m.state (withOutcomes r (measuredIn p.seq) (semCmds r seq' (prodState p.inputs (p.inputs.map f)))) ∧
        stateNormSq (introduced p.inputs p.seq) m.state = branchProb p.inputs (prodState p.inputs (p.inputs.map f)) seq' r := by
  obtain ⟨toks, prog, h1, h2, h3⟩ := pattern_exported env henv p hR hi he hE st f hf
  exact ⟨toks, prog, p.seq.map (printedCmd env), h1, h2, forall₂_printed env _, h3⟩

theorem sem_printed_exact {env : QasmEnv} (hex : env.Exact) {c : Command} (hc : c.SmallAngle) (r : ℕ → Bool) (ψ : QState) :
    (printedCmd env c).sem r ψ = c.sem r ψ := by
  cases c with
  | M n m s t =>
    obtain ⟨q, hq, ha⟩ := hc
    have hp : printedAngle env q = q := by
      unfold printedAngle
      rw [hex q hq]
      simp
    have hpn : printedAngle env (-(q : ℝ)) = -q := by
      unfold printedAngle
      have := hex (-q) (by simpa using hq)
      push_cast at this
      rw [this]
      simp
    have : printedBloch env m.toBloch = m.toBloch := by
      unfold printedBloch
      generalize m.toBloch = b at *
      obtain ⟨a, pl⟩ := b
      dsimp only at ha ⊢
      subst ha
      cases pl
      · simp only [hpn, neg_neg]; split <;> simp_all
      · simp only [hp, neg_neg]; split <;> simp_all
      · simp only [hpn, neg_neg]; split <;> simp_all
    simp only [printedCmd, Command.sem, this]
    rfl
  | _ => rfl

theorem semCmds_printed_exact {env : QasmEnv} (hex : env.Exact) (r : ℕ → Bool) : ∀ (l : List Command) (ψ : QState), (∀ c ∈ l, c.SmallAngle) →
    semCmds r (l.map (printedCmd env)) ψ = semCmds r l ψ := by
  intro l
  induction l with
  | nil => intro ψ _; rfl
  | cons c l ih =>
    intro ψ h
    simp only [List.map_cons, semCmds, List.foldl_cons] at ih ⊢
    rw [sem_printed_exact hex (h c (by simp)), ih _ fun c hc => h c (by simp [hc])]

/-- When the angles are multiples of `π/d` with `d ≤ 1000`, nothing is rounded. -/
theorem C64_pattern_exact (env : QasmEnv) (henv : env.Valid) (hex : env.Exact) (p : Pattern) (hR : Runnable p.inputs p.seq) (hi : p.inputs.Nodup)
    (he : ∀ c ∈ p.seq, c.Exportable) (hE : ∀ u, .E u u ∉ p.seq) (ha : ∀ c ∈ p.seq, c.SmallAngle) (st : ℕ → Option PlanarState) (f : ℕ → PlanarState)
    (hf : ∀ n ∈ p.inputs, st n = some (f n) ∧ (f n = PlanarState.zeroState ∨ f n = PlanarState.plus)) :
    ∃ toks prog, patternToQasm3 env p st = .ok toks ∧ QasmText false toks prog ∧
      ∀ o : ℕ → Bool, ∃ (m : QMach) (r : ℕ → Bool), QMach.init.run o prog = some m ∧
        m.qubits = (introduced p.inputs p.seq).toFinset ∧ m.bits = (measuredIn p.seq).toFinset ∧
        (∀ k n, (measuredIn p.seq)[k]? = some n → r n = o k ∧ m.val n = some (o k)) ∧
        PhaseEq m.state (withOutcomes r (measuredIn p.seq) (semCmds r p.seq (prodState p.inputs (p.inputs.map f)))) ∧
        stateNormSq (introduced p.inputs p.seq) m.state = branchProb p.inputs (prodState p.inputs (p.inputs.map f)) p.seq r := by
  obtain ⟨toks, prog, h1, h2, h3⟩ := pattern_exported env henv p hR hi he hE st f hf
  refine ⟨toks, prog, h1, h2, fun o => ?_⟩
  obtain ⟨m, r, h4, h5, h6, h7, h8, h9⟩ := h3 o
  refine ⟨m, r, h4, h5, h6, h7, ?_, ?_⟩
  · rwa [semCmds_printed_exact hex r _ _ ha] at h8
  · rw [h9]
    simp only [branchProb, liveList, measuredIn_printed, introduced_printed, semCmds_printed_exact hex r _ _ ha]

theorem stateToQasm3_ok {n : ℕ} {s : PlanarState} {t : List QTok} (h : stateToQasm3 n s = .ok t) :
    s = PlanarState.zeroState ∨ s = PlanarState.plus := by
  unfold stateToQasm3 at h
  split at h
  · exact Or.inl ‹_›
  · split at h
    · exact Or.inr ‹_›
    · cases h

theorem command_ok {env : QasmEnv} {c : Command} {t : List QTok} (h : commandToQasm3 env c = .ok t) : c.Exportable := by
  cases c with
  | N n s =>
    simp only [commandToQasm3] at h
    obtain ⟨t', h1, h2⟩ := (bind_ok_iff _ _ _).1 h
    exact stateToQasm3_ok h1
  | S n d => cases h
  | T => cases h
  | _ => trivial

theorem commands_ok {env : QasmEnv} : ∀ {l : List Command} {t : List QTok}, commandsToQasm3 env l = .ok t → ∀ c ∈ l, c.Exportable := by
  intro l
  induction l with
  | nil => intro t _ c hc; simp at hc
  | cons c l ih =>
    intro t h
    simp only [commandsToQasm3] at h
    obtain ⟨t1, h1, h2⟩ := (bind_ok_iff _ _ _).1 h
    obtain ⟨t2, h3, h4⟩ := (bind_ok_iff _ _ _).1 h2
    intro c' hc'
    rcases List.mem_cons.1 hc' with rfl | hc'
    · exact command_ok h1
    · exact ih h3 c' hc'

theorem inputs_ok {st : ℕ → Option PlanarState} : ∀ {l : List ℕ} {t : List QTok}, inputsToQasm3 st l = .ok t →
    ∀ n ∈ l, ∃ s, st n = some s ∧ (s = PlanarState.zeroState ∨ s = PlanarState.plus) := by
  intro l
  induction l with
  | nil => intro t _ c hc; simp at hc
  | cons n l ih =>
    intro t h
    cases hn : st n with
    | none => simp only [inputsToQasm3, hn] at h; cases h
    | some s =>
      simp only [inputsToQasm3, hn] at h
      obtain ⟨s', h1, h2⟩ := (bind_ok_iff _ _ _).1 h
      obtain ⟨t2, h3, h4⟩ := (bind_ok_iff _ _ _).1 h2
      obtain ⟨t3, h5, h6⟩ := (bind_ok_iff _ _ _).1 h4
      cases h1
      intro c' hc'
      rcases List.mem_cons.1 hc' with rfl | hc'
      · exact ⟨s, hn, stateToQasm3_ok h3⟩
      · exact ih h5 c' hc'

/-- The patterns that are exported: the inputs and the prepared nodes are in `|0⟩` or `|+⟩`, there is no command `S` or `T`. -/
theorem C64_accepted (env : QasmEnv) (p : Pattern) (st : ℕ → Option PlanarState) :
    (∃ toks, patternToQasm3 env p st = .ok toks) ↔
      (∀ n ∈ p.inputs, ∃ s, st n = some s ∧ (s = PlanarState.zeroState ∨ s = PlanarState.plus)) ∧ ∀ c ∈ p.seq, c.Exportable := by
  constructor
  · rintro ⟨toks, h⟩
    simp only [patternToQasm3] at h
    obtain ⟨t1, h1, h2⟩ := (bind_ok_iff _ _ _).1 h
    obtain ⟨t2, h3, h4⟩ := (bind_ok_iff _ _ _).1 h2
    exact ⟨inputs_ok h1, commands_ok h3⟩
  · rintro ⟨h1, h2⟩
    obtain ⟨t1, h3⟩ := inputs_exported (st := st) (f := fun n => (st n).getD PlanarState.plus) (l := p.inputs) fun n hn => by
      obtain ⟨s, hs, hs'⟩ := h1 n hn
      simp [hs, hs']
    obtain ⟨t2, h4⟩ := commands_exported (env := env) h2
    exact ⟨qHeader ++ t1 ++ t2, by simp only [patternToQasm3, h3, h4, bind, Except.bind]; rfl⟩

/-- The other patterns are refused: `KeyError` if an input has no state, else `ValueError`. -/
theorem C64_refused {env : QasmEnv} {p : Pattern} {st : ℕ → Option PlanarState} {e : PyErr} (h : patternToQasm3 env p st = .error e) :
    (e = .keyError ∧ ∃ n ∈ p.inputs, st n = none) ∨ e = .valueError := by
  have hs : ∀ {n s e}, stateToQasm3 n s = .error e → e = .valueError := by
    intro n s e h
    unfold stateToQasm3 at h
    split at h
    · cases h
    · split at h
      · cases h
      · cases h; rfl
  have hin : ∀ {l : List ℕ} {e}, inputsToQasm3 st l = .error e → (e = .keyError ∧ ∃ n ∈ l, st n = none) ∨ e = .valueError := by
    intro l
    induction l with
    | nil => intro e h; cases h
    | cons n l ih =>
      intro e h
      cases hn : st n with
      | none =>
        simp only [inputsToQasm3, hn, bind, Except.bind, Except.error.injEq] at h
        exact Or.inl ⟨h.symm, n, by simp, hn⟩
      | some s =>
        simp only [inputsToQasm3, hn, bind, Except.bind] at h
        cases h1 : stateToQasm3 n s with
        | error e' => rw [h1] at h; cases h; exact Or.inr (hs h1)
        | ok t =>
          cases h2 : inputsToQasm3 st l with
          | error e' =>
            rw [h1, h2] at h
            cases h
            rcases ih h2 with ⟨h3, k, hk, h4⟩ | h3
            · exact Or.inl ⟨h3, k, by simp [hk], h4⟩
            · exact Or.inr h3
          | ok t' => rw [h1, h2] at h; cases h
  have hc : ∀ {c : Command} {e}, commandToQasm3 env c = .error e → e = .valueError := by
    intro c e h
    cases c with
    | N n s =>
      simp only [commandToQasm3, bind, Except.bind] at h
      cases h1 : stateToQasm3 n s with
      | error e' => rw [h1] at h; cases h; exact hs h1
      | ok t => rw [h1] at h; cases h
    | S n d => cases h; rfl
    | T => cases h; rfl
    | _ => cases h
  have hcs : ∀ {l : List Command} {e}, commandsToQasm3 env l = .error e → e = .valueError := by
    intro l
    induction l with
    | nil => intro e h; cases h
    | cons c l ih =>
      intro e h
      simp only [commandsToQasm3, bind, Except.bind] at h
      cases h1 : commandToQasm3 env c with
      | error e' => rw [h1] at h; cases h; exact hc h1
      | ok t =>
        cases h2 : commandsToQasm3 env l with
        | error e' => rw [h1, h2] at h; cases h; exact ih h2
        | ok t' => rw [h1, h2] at h; cases h
  simp only [patternToQasm3, bind, Except.bind] at h
  cases h1 : inputsToQasm3 st p.inputs with
  | error e' => rw [h1] at h; cases h; exact hin h1
  | ok t =>
    cases h2 : commandsToQasm3 env p.seq with
    | error e' => rw [h1, h2] at h; cases h; exact Or.inr (hcs h2)
    | ok t' => rw [h1, h2] at h; cases h

/-- A node entangled with itself, which passes the checks of a runnable pattern, is written `cz q0, q0`: no run of the program ends. -/
theorem C64_self_entangle (env : QasmEnv) : ∃ (p : Pattern) (toks : List QTok) (prog : List QStmt), p.checkRunnability = .ok () ∧
    patternToQasm3 env p (fun _ => some PlanarState.plus) = .ok toks ∧ QasmText false toks prog ∧ ∀ o, QMach.init.run o prog = none := by
  refine ⟨(Pattern.empty [0]).extend [.E 0 0], qHeader ++ [.qubit, .q 0, .semi, .name "h", .q 0, .semi, .name "cz", .q 0, .comma, .q 0, .semi],
    [.qubit 0, .call ⟨"h", none, [0]⟩, .call ⟨"cz", none, [0, 0]⟩], rfl, ?_, ?_, ?_⟩
  · have h0 : PlanarState.plus ≠ PlanarState.zeroState := by simp [PlanarState.plus, PlanarState.zeroState]
    have h1 : ((Pattern.empty [0]).extend [.E 0 0]).inputs = [0] := rfl
    have h2 : ((Pattern.empty [0]).extend [.E 0 0]).seq = [.E 0 0] := rfl
    simp only [patternToQasm3, h1, h2, inputsToQasm3, commandsToQasm3, commandToQasm3, stateToQasm3, h0, if_false, if_true, bind, Except.bind]
    rfl
  · exact ⟨_, rfl, .cons .qubit (.cons (.call (.plain (.one rfl))) (.cons (.call (.plain (.more rfl (.one rfl)))) .nil))⟩
  · intro o
    simp [QMach.run, QMach.step, QMach.init, QMach.call, stdGate_h]

/-! Non-trivial instance: the pattern of `exampleSeq`, with its input in the state `|0⟩`. -/

/-- An environment: `lim` is exact on the rationals of denominator at most `1000`, sets are listed in increasing order. -/
noncomputable def exQasmEnv : QasmEnv := ⟨fun x => if h : ∃ q : ℚ, (q : ℝ) = x then h.choose else 0, fun s => s.sort⟩

theorem exQasmEnv_valid : exQasmEnv.Valid := fun _ => ⟨Finset.sort_nodup _ _, Finset.sort_toFinset _ _⟩

theorem exQasmEnv_exact : exQasmEnv.Exact := fun q _ => by
  have h : ∃ q' : ℚ, (q' : ℝ) = q := ⟨q, rfl⟩
  simp only [exQasmEnv, h, dif_pos]
  exact_mod_cast h.choose_spec

example : ∃ toks prog, patternToQasm3 exQasmEnv ((Pattern.empty [0]).extend exampleSeq) (fun _ => some PlanarState.zeroState) = .ok toks ∧
    QasmText false toks prog ∧ ∀ o, ∃ (m : QMach) (r : ℕ → Bool), QMach.init.run o prog = some m ∧ r 0 = o 0 ∧ r 1 = o 1 ∧
      PhaseEq m.state (withOutcomes r [0, 1] (semCmds r exampleSeq (prodState [0] [PlanarState.zeroState]))) := by
  have e := C08_count [0] exampleSeq
  obtain ⟨toks, prog, h1, h2, h3⟩ := C64_pattern_exact exQasmEnv exQasmEnv_valid exQasmEnv_exact ((Pattern.empty [0]).extend exampleSeq)
    (by rw [e.1, e.2.1]; exact exampleSeq_runnable) (by rw [e.2.1]; simp)
    (by rw [e.1]; simp [exampleSeq, Command.Exportable]) (by rw [e.1]; simp [exampleSeq]; omega)
    (by
      rw [e.1]
      simp only [exampleSeq, List.mem_cons, List.not_mem_nil, or_false, forall_eq_or_imp, forall_eq, Command.SmallAngle, true_and, and_true]
      refine ⟨⟨0, by norm_num, ?_⟩, ⟨1 / 4, ?_, ?_⟩⟩
      · simp [Measurement.toBloch, PauliMeasurement.toBloch]
      · norm_num
      · simp [Measurement.toBloch])
    (fun _ => some PlanarState.zeroState) (fun _ => PlanarState.zeroState) (fun _ _ => ⟨rfl, Or.inl rfl⟩)
  refine ⟨toks, prog, h1, h2, fun o => ?_⟩
  obtain ⟨m, r, h4, _, _, h5, h6, _⟩ := h3 o
  rw [e.1] at h5 h6
  rw [e.2.1] at h6
  exact ⟨m, r, h4, (h5 0 0 rfl).1, (h5 1 1 rfl).1, h6⟩

end Graphix
