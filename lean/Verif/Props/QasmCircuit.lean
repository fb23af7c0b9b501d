import Verif.Proofs.QasmCircuit
import Verif.Props.Qasm
import Verif.Props.CircSim

/-!
# Property C64: OpenQASM 3 export of circuits
-/

namespace Graphix

open Function
open scoped Classical

theorem closeInstr_printed (env : QasmEnv) (i : Instr) : CloseInstr i (printedInstr env i) := by
  cases i with
  | RX t θ => exact ⟨_, printedAngle_close env θ, rfl⟩
  | RY t θ => exact ⟨_, printedAngle_close env θ, rfl⟩
  | RZ t θ => exact ⟨_, printedAngle_close env θ, rfl⟩
  | J t θ => exact ⟨_, printedAngle_close env θ, rfl⟩
  | _ => rfl

theorem forall₂_printedInstr (env : QasmEnv) : ∀ l : List Instr, List.Forall₂ CloseInstr l (l.map (printedInstr env))
  | [] => .nil
  | i :: l => .cons (closeInstr_printed env i) (forall₂_printedInstr env l)

theorem printedAngle_exact {env : QasmEnv} (hex : env.Exact) {q : ℚ} (hq : q.den ≤ 1000) : printedAngle env q = q := by
  unfold printedAngle
  rw [hex q hq]
  simp

theorem printed_small {env : QasmEnv} (hex : env.Exact) {l : List Instr} (h : ∀ i ∈ l, i.SmallAngle) : l.map (printedInstr env) = l := by
  induction l with
  | nil => rfl
  | cons i l ih =>
    rw [List.map_cons, ih fun i hi => h i (by simp [hi])]
    congr 1
    have hi := h i (by simp)
    cases i <;> first
      | rfl
      | (obtain ⟨q, hq, rfl⟩ := hi; simp only [printedInstr, printedAngle_exact hex hq])

theorem circMeasured_cons (i : Instr) (l : List Instr) : circMeasured (i :: l) = circMeasured [i] ++ circMeasured l := by
  rw [← circMeasured_append]; rfl

theorem circMeasured_flatMap {f : Instr → List Instr} (hf : ∀ i, circMeasured (f i) = circMeasured [i]) : ∀ l : List Instr,
    circMeasured (l.flatMap f) = circMeasured l
  | [] => rfl
  | i :: l => by rw [List.flatMap_cons, circMeasured_append, circMeasured_cons i l, hf, circMeasured_flatMap hf l]

theorem any_isM {l : List Instr} : l.any Instr.isM = true ↔ circMeasured l ≠ [] := by
  induction l with
  | nil => simp [circMeasured]
  | cons i l ih =>
    rw [List.any_cons, Bool.or_eq_true, ih]
    cases i <;> simp [Instr.isM, circMeasured]

/-- The declarations: one register of qubits, and one of bits if something is measured. -/
noncomputable def circDecls (c : Circuit) : List QStmt := if circMeasured c.instrs = [] then [.qubits c.width] else [.qubits c.width, .bits c.width]

theorem lines_exported (env : QasmEnv) {c : Circuit} (hw : ∀ i ∈ c.instrs, i.Writable) :
    ∃ toks, circuitLines env c = .ok toks ∧ QasmText true toks (circDecls c ++ c.instrs.map (instrStmt env)) := by
  have h := instructions_result env c.instrs
  rw [if_pos hw] at h
  obtain ⟨t, ht⟩ := h
  have hq : Emits true [.qubit, .lbrack, .nat c.width, .rbrack, .regQ, .semi] [.qubits c.width] := Emits.stmt fun _ => .qubits
  have hb : Emits true [.bit, .lbrack, .nat c.width, .rbrack, .regB, .semi] [.bits c.width] := Emits.stmt fun _ => .bits
  have hd : Emits true ([.qubit, .lbrack, .nat c.width, .rbrack, .regQ, .semi] ++
      (if c.instrs.any Instr.isM then [.bit, .lbrack, .nat c.width, .rbrack, .regB, .semi] else [])) (circDecls c) := by
    unfold circDecls
    by_cases hm : c.instrs.any Instr.isM = true
    · rw [if_pos hm, if_neg (any_isM.1 hm)]; exact Emits.append hq hb
    · rw [if_neg hm, if_pos (by by_contra h; exact hm (any_isM.2 h))]; exact Emits.append hq Emits.nil
  refine ⟨_, by simp only [circuitLines, ht, bind, Except.bind]; rfl, _, ?_, (Emits.append hd (emits_instrs ht)).all⟩
  simp only [qHeader, List.append_assoc]

/-- What a run of the instructions does, from any state of the register. -/
theorem body_run (env : QasmEnv) {w : ℕ} {l : List Instr} (hl : Circuit.listOk (Finset.range w) l) (hw : ∀ i ∈ l, i.Writable)
    (hz : ∀ i ∈ l, i.NotRZZ) (o : ℕ → Bool) (m : QMach) (hq : m.qubits = Finset.range w) (hb : circMeasured l ≠ [] → m.bits = Finset.range w)
    (hk : m.count = 0) : ∃ (m' : QMach) (r : ℕ → Bool), m.run o (l.map (instrStmt env)) = some m' ∧ m'.qubits = Finset.range w ∧
      (∀ k n, (circMeasured l)[k]? = some n → r n = o k ∧ m'.val n = some (o k)) ∧
      PhaseEq m'.state (withOutcomes r (circMeasured l) (semInstrs o 0 (l.map (printedInstr env)) m.state)) ∧
      stateNormSq (List.range w) m'.state = stateNormSq (circLive w l) (semInstrs o 0 (l.map (printedInstr env)) m.state) := by
  obtain ⟨hnd, hsub⟩ := circMeasured_nodup hl
  let r : ℕ → Bool := fun n => o ((circMeasured l).idxOf n)
  have hr : ∀ k n, (circMeasured l)[k]? = some n → o (0 + k) = r n := by
    intro k n hk
    obtain ⟨hk', rfl⟩ := List.getElem?_eq_some_iff.1 hk
    dsimp only [r]
    rw [hnd.idxOf_getElem, zero_add]
  obtain ⟨m', h1, h2, _, h4, _, h6, h7⟩ := run_instrs env o r w l 0 [] (Finset.range w) m m.state hl (fun i hi => ⟨hw i hi, hz i hi⟩)
    (fun n hn => ⟨by simpa using hn, by simp⟩) hr hq hb hk (by simp) ⟨1, by simp, by rw [withOutcomes_nil, one_smul]⟩
  rw [List.nil_append] at h6 h7
  have hphase : PhaseEq m'.state (withOutcomes r (circMeasured l) (semInstrs o 0 (l.map (printedInstr env)) m.state)) := h7
  refine ⟨m', r, h1, h2.trans hq, fun k n hk => ?_, hphase, ?_⟩
  · have := hr k n hk
    rw [zero_add] at this
    exact ⟨this.symm, by rw [this]; exact h4 n (List.mem_of_getElem? hk)⟩
  · rw [stateNormSq_phase hphase]
    exact stateNormSq_withOutcomes r (fun n hn => by simpa using hsub n hn) (fun n => by rw [mem_circLive, List.mem_range]) h6

/-- The state in which the registers are declared. -/
theorem decls_run (o : ℕ → Bool) (c : Circuit) : ∃ m : QMach, QMach.init.run o (circDecls c) = some m ∧ m.qubits = Finset.range c.width ∧
    (circMeasured c.instrs ≠ [] → m.bits = Finset.range c.width) ∧ m.count = 0 ∧
    m.state = prodState (List.range c.width) (List.replicate c.width PlanarState.zeroState) := by
  have hs : ∀ (l : List ℕ) (ψ : QState), l.foldl (fun ψ n => prep n (basisKet false) ψ) ψ =
      fun b => prodState l (List.replicate l.length PlanarState.zeroState) b * ψ b := by
    intro l
    induction l with
    | nil => intro ψ; funext b; simp [prodState]
    | cons n l ih =>
      intro ψ
      rw [List.foldl_cons, ih]
      funext b
      simp only [List.length_cons, List.replicate_succ, prodState, prep]
      have : PlanarState.zeroState.vec (b n) = basisKet false (b n) := by
        cases b n <;> simp [basisKet, PlanarState.vec, PlanarState.zeroState, planarState]
      rw [this]
      ring
  have h0 : (List.range c.width).foldl (fun ψ n => prep n (basisKet false) ψ) QMach.init.state =
      prodState (List.range c.width) (List.replicate c.width PlanarState.zeroState) := by
    rw [hs]
    funext b
    simp [QMach.init]
  unfold circDecls
  by_cases hm : circMeasured c.instrs = []
  · rw [if_pos hm]
    exact ⟨{ QMach.init with qubits := Finset.range c.width, state := (List.range c.width).foldl (fun ψ n => prep n (basisKet false) ψ) QMach.init.state },
      rfl, rfl, fun h => absurd hm h, rfl, h0⟩
  · rw [if_neg hm]
    exact ⟨{ QMach.init with
      qubits := Finset.range c.width
      bits := Finset.range c.width
      state := (List.range c.width).foldl (fun ψ n => prep n (basisKet false) ψ) QMach.init.state }, rfl, rfl, fun _ => rfl, rfl, h0⟩

/-! ### With the transpilation -/

theorem transpiled_printed {env : QasmEnv} (hex : env.Exact) : ∀ l : List Instr,
    ((l.flatMap Circuit.jToRzhInstrs).flatMap Circuit.zAxisInstrs).map (printedInstr env) =
      ((l.map (printedInstr env)).flatMap Circuit.jToRzhInstrs).flatMap Circuit.zAxisInstrs := by
  have h2 : printedAngle env 2⁻¹ = 2⁻¹ := by
    have := printedAngle_exact hex (q := 2⁻¹) (by norm_num)
    push_cast at this
    exact this
  intro l
  induction l with
  | nil => rfl
  | cons i l ih =>
    rw [List.flatMap_cons, List.flatMap_append, List.map_append, ih, List.map_cons, List.flatMap_cons, List.flatMap_append]
    congr 1
    cases i with
    | M t a => cases a <;> simp [Circuit.jToRzhInstrs, Circuit.zAxisInstrs, printedInstr, h2]
    | _ => simp [Circuit.jToRzhInstrs, Circuit.zAxisInstrs, printedInstr]

theorem transpiled_measured (l : List Instr) : circMeasured ((l.flatMap Circuit.jToRzhInstrs).flatMap Circuit.zAxisInstrs) = circMeasured l := by
  rw [circMeasured_flatMap, circMeasured_flatMap]
  · intro i; cases i <;> rfl
  · intro i
    cases i with
    | M t a => cases a <;> rfl
    | _ => rfl

theorem transpiled_writable (l : List Instr) : ∀ i ∈ (l.flatMap Circuit.jToRzhInstrs).flatMap Circuit.zAxisInstrs, i.Writable := by
  intro i hi
  rw [List.mem_flatMap] at hi
  obtain ⟨j, hj, hi⟩ := hi
  rw [List.mem_flatMap] at hj
  obtain ⟨k, _, hj⟩ := hj
  cases k with
  | M t a =>
    simp only [Circuit.jToRzhInstrs, List.mem_singleton] at hj
    subst hj
    cases a <;> simp only [Circuit.zAxisInstrs, List.mem_cons, List.not_mem_nil, or_false] at hi
    · rcases hi with rfl | rfl <;> simp [Instr.Writable]
    · rcases hi with rfl | rfl <;> simp [Instr.Writable]
    · subst hi; rfl
  | J t θ =>
    simp only [Circuit.jToRzhInstrs, List.mem_cons, List.not_mem_nil, or_false] at hj
    rcases hj with rfl | rfl <;> simp only [Circuit.zAxisInstrs, List.mem_singleton] at hi <;> subst hi <;> trivial
  | _ =>
    simp only [Circuit.jToRzhInstrs, List.mem_singleton] at hj
    subst hj
    simp only [Circuit.zAxisInstrs, List.mem_singleton] at hi
    subst hi
    trivial

theorem transpiled_notRZZ {l : List Instr} (h : ∀ i ∈ l, i.NotRZZ) : ∀ i ∈ (l.flatMap Circuit.jToRzhInstrs).flatMap Circuit.zAxisInstrs, i.NotRZZ := by
  intro i hi
  rw [List.mem_flatMap] at hi
  obtain ⟨j, hj, hi⟩ := hi
  rw [List.mem_flatMap] at hj
  obtain ⟨k, hk, hj⟩ := hj
  have hk := h k hk
  cases k with
  | M t a =>
    simp only [Circuit.jToRzhInstrs, List.mem_singleton] at hj
    subst hj
    cases a <;> simp only [Circuit.zAxisInstrs, List.mem_cons, List.not_mem_nil, or_false] at hi
    · rcases hi with rfl | rfl <;> trivial
    · rcases hi with rfl | rfl <;> trivial
    · subst hi; trivial
  | J t θ =>
    simp only [Circuit.jToRzhInstrs, List.mem_cons, List.not_mem_nil, or_false] at hj
    rcases hj with rfl | rfl <;> simp only [Circuit.zAxisInstrs, List.mem_singleton] at hi <;> subst hi <;> trivial
  | RZZ c t θ => exact hk.elim
  | _ =>
    simp only [Circuit.jToRzhInstrs, List.mem_singleton] at hj
    subst hj
    simp only [Circuit.zAxisInstrs, List.mem_singleton] at hi
    subst hi
    trivial

theorem transpile_eq (env : QasmEnv) {c : Circuit} (hc : c.Built) : ∃ c' : Circuit, c'.width = c.width ∧
    c'.instrs = (c.instrs.flatMap Circuit.jToRzhInstrs).flatMap Circuit.zAxisInstrs ∧ Circuit.listOk (Finset.range c.width) c'.instrs ∧
    circuitToQasm3 env c = circuitLines env c' := by
  obtain ⟨h1, h2⟩ := hc.listOk
  obtain ⟨h3, h4⟩ := Circuit.flatMap_ok Circuit.rzh_ok h1
  have e1 : c.transpileJToRzh = .ok ⟨c.width, c.instrs.flatMap Circuit.jToRzhInstrs, _⟩ := Circuit.extend_ok_iff.2 ⟨h3, rfl⟩
  obtain ⟨h5, h6⟩ := Circuit.flatMap_ok Circuit.zAxis_ok h3
  have e2 : Circuit.transpileMeasurementsToZAxis ⟨c.width, c.instrs.flatMap Circuit.jToRzhInstrs,
      Circuit.afterList (Circuit.new c.width).active (c.instrs.flatMap Circuit.jToRzhInstrs)⟩ =
      .ok ⟨c.width, (c.instrs.flatMap Circuit.jToRzhInstrs).flatMap Circuit.zAxisInstrs, _⟩ := Circuit.extend_ok_iff.2 ⟨h5, rfl⟩
  refine ⟨⟨c.width, (c.instrs.flatMap Circuit.jToRzhInstrs).flatMap Circuit.zAxisInstrs,
    Circuit.afterList (Circuit.new c.width).active ((c.instrs.flatMap Circuit.jToRzhInstrs).flatMap Circuit.zAxisInstrs)⟩, rfl, rfl, h5, ?_⟩
  · simp only [circuitToQasm3, if_true, e1, e2, bind, Except.bind]

/-- **C64.** The export of a circuit without `RZZ` is the text of a program that declares a register of qubits, and a register of bits if the
circuit has measurements.  The instructions that the program follows are those of the circuit, with the angles rounded at most to a relative
error of `1e-9` (not at all if they are multiples of `π/d` with `d ≤ 1000`). From any state of the register, every run of the statements after
the declarations ends without an error, stores the outcome of each measurement in the bit of its qubit, and ends in the state of the circuit
for these outcomes, with the same probability. -/
theorem C64_circuit_body_partial (env : QasmEnv) (hex : env.Exact) (c : Circuit) (hc : c.Built) (hz : ∀ i ∈ c.instrs, i.NotRZZ) :
    ∃ toks body l', circuitToQasm3 env c = .ok toks ∧
      QasmText true toks ((if circMeasured c.instrs = [] then [.qubits c.width] else [.qubits c.width, .bits c.width]) ++ body) ∧
      List.Forall₂ CloseInstr c.instrs l' ∧ ((∀ i ∈ c.instrs, i.SmallAngle) → l' = c.instrs) ∧
      ∀ (o : ℕ → Bool) (m : QMach), m.qubits = Finset.range c.width → (circMeasured c.instrs ≠ [] → m.bits = Finset.range c.width) → m.count = 0 →
        ∃ (m' : QMach) (r : ℕ → Bool), m.run o body = some m' ∧ m'.qubits = Finset.range c.width ∧
          (∀ k n, (circMeasured c.instrs)[k]? = some n → r n = o k ∧ m'.val n = some (o k)) ∧
          PhaseEq m'.state (withOutcomes r (circMeasured c.instrs) (semInstrs o 0 l' m.state)) ∧
          stateNormSq (List.range c.width) m'.state = stateNormSq (circLive c.width c.instrs) (semInstrs o 0 l' m.state) := by
  obtain ⟨c', hw', hi', hl', he'⟩ := transpile_eq env hc
  have hwr : ∀ i ∈ c'.instrs, i.Writable := by rw [hi']; exact transpiled_writable c.instrs
  have hnz : ∀ i ∈ c'.instrs, i.NotRZZ := by rw [hi']; exact transpiled_notRZZ hz
  obtain ⟨toks, h1, h2⟩ := lines_exported env hwr
  have hm : circMeasured c'.instrs = circMeasured c.instrs := by rw [hi']; exact transpiled_measured c.instrs
  refine ⟨toks, c'.instrs.map (instrStmt env), c.instrs.map (printedInstr env), he'.trans h1, ?_, forall₂_printedInstr env _, printed_small hex, ?_⟩
  · have : circDecls c' = if circMeasured c.instrs = [] then [.qubits c.width] else [.qubits c.width, .bits c.width] := by
      unfold circDecls; rw [hm, hw']
    rw [← this]
    exact h2
  · intro o m hq hb hk
    obtain ⟨m', r, h3, h4, h5, h6, h7⟩ := body_run env hl' hwr hnz o m hq (by rw [hm]; exact hb) hk
    have hsem : OpPhaseEq (semInstrs o 0 (c'.instrs.map (printedInstr env))) (semInstrs o 0 (c.instrs.map (printedInstr env))) := by
      rw [hi', transpiled_printed hex]
      exact (Circuit.zAxis_sem _ o 0).trans (Circuit.rzh_sem _ o 0)
    obtain ⟨d, hd, hsem⟩ := hsem
    rw [hm] at h5 h6
    refine ⟨m', r, h3, h4, h5, ?_, ?_⟩
    · rw [hsem, withOutcomes_smul] at h6
      obtain ⟨d', hd', h6⟩ := h6
      exact ⟨d' * d, by simp [hd, hd'], by rw [h6, smul_smul]⟩
    · rw [h7, show circLive c.width c'.instrs = circLive c.width c.instrs by unfold circLive; rw [hm]]
      exact stateNormSq_phase ⟨d, hd, hsem _⟩

/-- The whole program, from its beginning: the qubits start in the state `|0⟩`. -/
theorem C64_circuit_partial (env : QasmEnv) (hex : env.Exact) (c : Circuit) (hc : c.Built) (hz : ∀ i ∈ c.instrs, i.NotRZZ) :
    ∃ toks prog l', circuitToQasm3 env c = .ok toks ∧ QasmText true toks prog ∧
      List.Forall₂ CloseInstr c.instrs l' ∧ ((∀ i ∈ c.instrs, i.SmallAngle) → l' = c.instrs) ∧
      ∀ o : ℕ → Bool, ∃ (m : QMach) (r : ℕ → Bool), QMach.init.run o prog = some m ∧ m.qubits = Finset.range c.width ∧
        (∀ k n, (circMeasured c.instrs)[k]? = some n → r n = o k ∧ m.val n = some (o k)) ∧
        PhaseEq m.state (withOutcomes r (circMeasured c.instrs)
          (semInstrs o 0 l' (prodState (List.range c.width) (List.replicate c.width PlanarState.zeroState)))) ∧
        stateNormSq (List.range c.width) m.state = stateNormSq (circLive c.width c.instrs)
          (semInstrs o 0 l' (prodState (List.range c.width) (List.replicate c.width PlanarState.zeroState))) := by
  obtain ⟨toks, body, l', h1, h2, h3, h4, h5⟩ := C64_circuit_body_partial env hex c hc hz
  refine ⟨toks, _, l', h1, h2, h3, h4, fun o => ?_⟩
  obtain ⟨m, h6, h7, h8, h9, h10⟩ := decls_run o c
  obtain ⟨m', r, h11, h12, h13, h14, h15⟩ := h5 o m h7 h8 h9
  rw [h10] at h14 h15
  exact ⟨m', r, run_append_some h6 h11, h12, h13, h14, h15⟩

/-- Every circuit that was built by the methods of the class is exported. -/
theorem C64_circuit_accepted (env : QasmEnv) (c : Circuit) (hc : c.Built) : ∃ toks, circuitToQasm3 env c = .ok toks := by
  obtain ⟨c', _, hi', _, he'⟩ := transpile_eq env hc
  obtain ⟨toks, h1, _⟩ := lines_exported env (c := c') (by rw [hi']; exact transpiled_writable c.instrs)
  exact ⟨toks, he'.trans h1⟩

/-- Without the transpilation, the circuits with a gate `J` or a measurement along another axis than `Z` are refused by a `ValueError`, and
the other ones are exported. -/
theorem C64_no_transpile (env : QasmEnv) (c : Circuit) :
    ((∃ toks, circuitToQasm3 env c false = .ok toks) ↔ (∀ t θ, .J t θ ∉ c.instrs) ∧ ∀ t a, .M t a ∈ c.instrs → a = .Z) ∧
    ∀ e, circuitToQasm3 env c false = .error e → e = .valueError := by
  have hiff : (∀ i ∈ c.instrs, i.Writable) ↔ (∀ t θ, .J t θ ∉ c.instrs) ∧ ∀ t a, .M t a ∈ c.instrs → a = .Z := by
    constructor
    · intro h
      exact ⟨fun t θ hi => h _ hi, fun t a hi => h _ hi⟩
    · rintro ⟨h1, h2⟩ i hi
      cases i with
      | M t a => exact h2 t a hi
      | J t θ => exact (h1 t θ hi).elim
      | _ => trivial
  have h := instructions_result env c.instrs
  have e : circuitToQasm3 env c false = circuitLines env c := rfl
  rw [e, ← hiff]
  by_cases hw : ∀ i ∈ c.instrs, i.Writable
  · obtain ⟨toks, h1, _⟩ := lines_exported env hw
    refine ⟨⟨fun _ => hw, fun _ => ⟨toks, h1⟩⟩, fun e he => ?_⟩
    rw [h1] at he
    cases he
  · rw [if_neg hw] at h
    have h1 : circuitLines env c = .error .valueError := by simp only [circuitLines, h, bind, Except.bind]
    rw [h1]
    refine ⟨⟨fun ⟨_, h2⟩ => (by cases h2), fun h2 => absurd h2 hw⟩, fun e he => ?_⟩
    cases he
    rfl

/-- `RZZ` is written `crz`, which is another gate: the program of `H 0; H 1; RZZ(π) 0 1` does not end in the state of the circuit. -/
theorem C64_rzz_wrong (env : QasmEnv) (hex : env.Exact) : ∃ (c : Circuit) (toks : List QTok) (prog : List QStmt), c.Built ∧
    (∀ i ∈ c.instrs, i.Proper ∧ i.SmallAngle) ∧ circuitToQasm3 env c = .ok toks ∧ QasmText true toks prog ∧
    ∀ o : ℕ → Bool, ∃ m, QMach.init.run o prog = some m ∧
      ¬ PhaseEq m.state (semInstrs o 0 c.instrs (prodState (List.range c.width) (List.replicate c.width PlanarState.zeroState))) := by
  let c : Circuit := ⟨2, [.H 0, .H 1, .RZZ 0 1 1], {0, 1}⟩
  have hc : c.Built := ⟨2, [.H 0, .H 1, .RZZ 0 1 1], by
    rw [Circuit.extend_ok_iff]
    simp [Circuit.new, Circuit.listOk, Circuit.instrOk, Instr.after, Circuit.afterList, c]
    rfl⟩
  have hp1 : printedAngle env 1 = 1 := by
    have := printedAngle_exact hex (q := 1) (by norm_num)
    push_cast at this
    exact this
  obtain ⟨c', hw', hi', _, he'⟩ := transpile_eq env hc
  have hi : c'.instrs = [.H 0, .H 1, .RZZ 0 1 1] := by rw [hi']; rfl
  obtain ⟨toks, h1, h2⟩ := lines_exported env (c := c') (by rw [hi]; simp [Instr.Writable])
  refine ⟨c, toks, _, hc, by simp [c, Instr.Proper, Instr.SmallAngle], he'.trans h1, h2, fun o => ?_⟩
  obtain ⟨m, h3, h4, _, _, h5⟩ := decls_run o c'
  rw [hw'] at h4 h5
  have h4 : m.qubits = Finset.range 2 := h4
  refine ⟨{ m with state := ctrlOp (rot Ops.Z 1) 0 1 (op1 Ops.H 1 (op1 Ops.H 0 m.state)) }, run_append_some h3 ?_, ?_⟩
  · rw [hi]
    have e : stdGate ⟨"crz", some (printedAngle env 1 * Real.pi), [0, 1]⟩ = some (ctrlOp (rot Ops.Z 1) 0 1) := by rw [hp1]; rfl
    simp [QMach.run, QMach.step, QMach.call, instrStmt, instrCall, h4, stdGate_h, e]
  · rintro ⟨d, hd, h⟩
    dsimp only at h
    rw [h5] at h
    have hr : prodState (List.range c.width) (List.replicate c.width PlanarState.zeroState) =
        prep 0 (basisKet false) (prep 1 (basisKet false) fun _ => 1) := by
      have hv : PlanarState.zeroState.vec = basisKet false := by
        funext x
        cases x <;> simp [basisKet, PlanarState.vec, PlanarState.zeroState, planarState]
      rw [← hv]; rfl
    rw [hr] at h
    have hh : ∀ b, op1 Ops.H 1 (op1 Ops.H 0 (prep 0 (basisKet false) (prep 1 (basisKet false) fun _ => 1))) b = 1 / 2 := by
      intro b
      have h2 := sqrt2_inv_mul
      cases h0 : b 0 <;> cases h1 : b 1 <;> simp [op1, prep, basisKet, Ops.H, mat2, h0, h1] <;> simpa using h2
    have hs : ∀ b, semInstrs o 0 c.instrs (prep 0 (basisKet false) (prep 1 (basisKet false) fun _ => 1)) b =
        Complex.exp (Complex.I * ((if b 0 = b 1 then -(1 * Real.pi / 2) else 1 * Real.pi / 2 : ℝ) : ℂ)) * (1 / 2) := fun b => by
      rw [← hh b]; rfl
    have h00 := congrFun h (fun _ => false)
    have h01 := congrFun h (fun n => n == 1)
    have e1 : Complex.exp (Complex.I * ((-(1 * Real.pi / 2) : ℝ) : ℂ)) = -Complex.I := by
      rw [show Complex.I * ((-(1 * Real.pi / 2) : ℝ) : ℂ) = -(Real.pi / 2 * Complex.I) by push_cast; ring, Complex.exp_neg, Complex.exp_pi_div_two_mul_I]
      simp
    have e2 : Complex.exp (Complex.I * ((1 * Real.pi / 2 : ℝ) : ℂ)) = Complex.I := by
      rw [show Complex.I * ((1 * Real.pi / 2 : ℝ) : ℂ) = Real.pi / 2 * Complex.I by push_cast; ring, Complex.exp_pi_div_two_mul_I]
    rw [Pi.smul_apply, hs] at h00 h01
    simp only [if_true, e1] at h00
    simp only [ctrlOp, hh, Bool.false_eq_true, if_false, smul_eq_mul] at h00
    have hf : ((fun n : ℕ => n == 1) 0 = (fun n : ℕ => n == 1) 1) ↔ False := by simp
    simp only [hf, if_false, e2, ctrlOp, hh, smul_eq_mul] at h01
    simp only [show ((0 : ℕ) == 1) = false from rfl, Bool.false_eq_true, if_false] at h01
    have : (1 : ℂ) = 0 := by linear_combination h00 + h01
    exact one_ne_zero this

/-! Non-trivial instance: gates with one and two qubits, `J`, and measurements along `X` and `Y`. -/

example : ∃ c : Circuit, c.Built ∧ (Circuit.new 3).extend [.H 0, .CNOT 0 1, .J 1 (1 / 3), .M 0 .X, .RZ 2 (1 / 4), .M 1 .Y] = .ok c ∧
    ∃ toks prog, circuitToQasm3 exQasmEnv c = .ok toks ∧ QasmText true toks prog ∧
      ∀ o : ℕ → Bool, ∃ (m : QMach) (r : ℕ → Bool), QMach.init.run o prog = some m ∧ r 0 = o 0 ∧ r 1 = o 1 ∧
        PhaseEq m.state (withOutcomes r [0, 1] (semInstrs o 0 [.H 0, .CNOT 0 1, .J 1 (1 / 3), .M 0 .X, .RZ 2 (1 / 4), .M 1 .Y]
          (prodState [0, 1, 2] (List.replicate 3 PlanarState.zeroState)))) := by
  have hb : (Circuit.new 3).extend [.H 0, .CNOT 0 1, .J 1 (1 / 3), .M 0 .X, .RZ 2 (1 / 4), .M 1 .Y] =
      .ok ⟨3, [.H 0, .CNOT 0 1, .J 1 (1 / 3), .M 0 .X, .RZ 2 (1 / 4), .M 1 .Y], ((Finset.range 3).erase 0).erase 1⟩ := by
    rw [Circuit.extend_ok_iff]
    simp [Circuit.new, Circuit.listOk, Circuit.instrOk, Instr.after, Circuit.afterList]
  have hB : Circuit.Built ⟨3, [.H 0, .CNOT 0 1, .J 1 (1 / 3), .M 0 .X, .RZ 2 (1 / 4), .M 1 .Y], ((Finset.range 3).erase 0).erase 1⟩ := ⟨3, _, hb⟩
  obtain ⟨toks, prog, l', h1, h2, _, h3, h4⟩ := C64_circuit_partial exQasmEnv exQasmEnv_exact _ hB (by simp [Instr.NotRZZ])
  refine ⟨_, hB, hb, toks, prog, h1, h2, fun o => ?_⟩
  obtain ⟨m, r, h5, _, h6, h7, _⟩ := h4 o
  rw [h3 (by
    simp only [List.mem_cons, List.not_mem_nil, or_false, forall_eq_or_imp, forall_eq, Instr.SmallAngle, true_and, and_true]
    exact ⟨⟨1 / 3, by norm_num, by norm_num⟩, ⟨1 / 4, by norm_num, by norm_num⟩⟩)] at h7
  exact ⟨m, r, h5, (h6 0 0 rfl).1, (h6 1 1 rfl).1, h7⟩

end Graphix
