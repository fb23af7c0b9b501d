import Verif.Props.FlowRoundTrip

/-!
# Simulation of deterministic patterns (C10, C61)
-/

namespace Graphix

/-- **C10** When a runnable pattern is deterministic, no choice of the branch selector makes a run fail, and two runs on the same normalised
input, whatever outcomes they get, end in the same state up to a global phase: the fidelity of the two states is 1. -/
theorem C10_deterministic (p : Pattern) (hp : p.OutputsOk) (hrun : p.checkRunnability = .ok ()) (hS : ∀ n d, Command.S n d ∉ p.seq)
    (hdet : Deterministic p) (env env' : SimEnv) (henv : env.Ok p.seq) (henv' : env'.Ok p.seq) (data : InputData) (plusObj plusObj' : Bool)
    (hd : data.Ok p.inputs.length) (hplus : plusObj = true → data = .state PlanarState.plus)
    (hplus' : plusObj' = true → data = .state PlanarState.plus) (junk junk' : ℕ → Buf)
    (hsel : ∀ results n, ∃ o, env.sel results n (1 / 2) = .ok o) (hsel' : ∀ results n, ∃ o, env'.sel results n (1 / 2) = .ok o) :
    ∃ st st', simulate env p data plusObj junk = .ok st ∧ simulate env' p data plusObj' junk' = .ok st' ∧ SameState st.sv st'.sv ∧
      st.sv.fidelity st'.sv = .ok 1 := by
  have hR := (checkRunnability_iff p).1 hrun
  have hon : OnNodes p.inputs (data.toState p.inputs) := toState_on _ data
  have habs : Absent p.preparedNodes (data.toState p.inputs) := by
    refine hon.absent fun n hn hc => ?_
    have hnd := hR.introduced_nodup hp.inputs_nodup
    unfold introduced at hnd
    exact (List.nodup_append.1 hnd).2.2 n hn n (List.mem_toFinset.1 hc) rfl
  have hstate : ∀ r r', ∃ c : ℂ, ‖c‖ = 1 ∧ semCmds r p.seq (data.toState p.inputs) = c • semCmds r' p.seq (data.toState p.inputs) := by
    intro r r'
    obtain ⟨⟨c, hc, h⟩, -⟩ := hdet r r'
    exact ⟨c, hc, h _ habs⟩
  have hu : ∀ r r', branchProb p.inputs (data.toState p.inputs) p.seq r = branchProb p.inputs (data.toState p.inputs) p.seq r' := by
    intro r r'
    obtain ⟨c, hc, h⟩ := hstate r r'
    unfold branchProb
    rw [h, stateNormSq_smul, Complex.normSq_eq_norm_sq, hc]
    simp
  obtain ⟨st, h1, -⟩ := C10_uniform env p henv hp hrun hS data plusObj hd hplus junk hu hsel
  obtain ⟨st', h1', -⟩ := C10_uniform env' p henv' hp hrun hS data plusObj' hd hplus' junk' hu hsel'
  have hrun1 : ∀ {env : SimEnv} {plusObj : Bool} {junk : ℕ → Buf} {st : SimState}, env.Ok p.seq → (plusObj = true → data = .state PlanarState.plus) →
      simulate env p data plusObj junk = .ok st → st.sv.nqubit = p.outputs.length ∧ normSq p.outputs.length st.sv.psi = 1 ∧
        ∃ c : ℂ, c ≠ 0 ∧ absState p.outputs st.sv.psi = c • semCmds (fun _ => false) p.seq (data.toState p.inputs) := by
    intro env plusObj junk st henv hplus h1
    rcases C10_run env p henv hp hrun hS data plusObj hd hplus junk with ⟨st', a1, -, -, a2, -, a3⟩ | ⟨e, a1, -⟩
    swap
    · rw [h1] at a1; cases a1
    obtain rfl := Except.ok.inj (h1.symm.trans a1)
    obtain ⟨r, hr⟩ := exists_agrees st.results
    obtain ⟨-, c1, c, c2⟩ := a3 r hr
    obtain ⟨d, hd, e⟩ := hstate r fun _ => false
    rw [e, smul_smul] at c2
    refine ⟨a2, by rw [← stateNormSq_abs _ hp.outputs_nodup]; exact c1, c * d, ?_, c2⟩
    intro h0
    rw [h0, zero_smul] at c2
    rw [c2] at c1
    simp [stateNormSq] at c1
  obtain ⟨n1, n2, c, hc, n3⟩ := hrun1 henv hplus h1
  obtain ⟨m1, m2, d, hd', m3⟩ := hrun1 henv' hplus' h1'
  have hsame : SameState st.sv st'.sv := by
    refine ⟨by rw [n1, m1], by rw [n1]; exact n2, by rw [m1]; exact m2, ?_⟩
    rw [m1]
    exact phase_of_prop hp.outputs_nodup (σ := id) (fun a _ b _ h => h) hd' (a := c) (by rw [List.map_id]; exact n3) m3 n2 m2
  exact ⟨st, st', h1, h1', hsame, C59_fidelity hsame⟩

/-- **C61** When `to_pauliflow` succeeds on a pattern (that does not do X corrections on its inputs), simulations of this pattern never fail,
and always give the same state up to a phase. -/
theorem C61_simulate_partial (p : Pattern) (hp : p.OutputsOk) (hE : NoSelfLoop p.seq) (hS : ∀ n d, Command.S n d ∉ p.seq)
    (hplus : ∀ n st, Command.N n st ∈ p.seq → st = PlanarState.plus) (sp : StdPattern)
    (h : StdPattern.fromPattern p = .ok sp) (enum : Finset (Sym2 ℕ) → List (ℕ × ℕ)) (he : EnumOrd.Valid enum)
    (ord : SetOrd) (hord : ord.Valid) (hin : ∀ u w, sp.XDom u w → w ∉ p.inputs) (f : Flow) (hf : p.toPauliFlow enum ord = .ok f)
    (env env' : SimEnv) (henv : env.Ok p.seq) (henv' : env'.Ok p.seq) (data : InputData) (plusObj plusObj' : Bool)
    (hd : data.Ok p.inputs.length) (hpl : plusObj = true → data = .state PlanarState.plus)
    (hpl' : plusObj' = true → data = .state PlanarState.plus) (junk junk' : ℕ → Buf)
    (hsel : ∀ results n, ∃ o, env.sel results n (1 / 2) = .ok o) (hsel' : ∀ results n, ∃ o, env'.sel results n (1 / 2) = .ok o) :
    ∃ st st', simulate env p data plusObj junk = .ok st ∧ simulate env' p data plusObj' junk' = .ok st' ∧ SameState st.sv st'.sv ∧
      st.sv.fidelity st'.sv = .ok 1 := by
  obtain ⟨xz, -, -, ⟨f', -, -, hfol⟩ | ⟨herr, -⟩⟩ := C61_to_pauliflow_partial p hp hE hplus sp h enum he ord hord hin
  · exact C10_deterministic p hp ((checkRunnability_iff p).2 (fromPattern_ok h).1) hS hfol.1 env env' henv henv' data plusObj plusObj' hd
      hpl hpl' junk junk' hsel hsel'
  · rw [hf] at herr; cases herr

/-! Non-vacuity: the pattern of two J gates, and selectors that choose 0 and 1. -/

example : ∃ st st', simulate exampleEnv' stdExample (.state ⟨.XZ, 1/3⟩) false (fun _ _ => 7) = .ok st ∧
    simulate { exampleEnv' with sel := fun _ _ _ => .ok true } stdExample (.state ⟨.XZ, 1/3⟩) false (fun _ _ => 0) = .ok st' ∧
    SameState st.sv st'.sv ∧ st.sv.fidelity st'.sv = .ok 1 := by
  obtain ⟨f, hf⟩ : ∃ f, stdExample.toPauliFlow exEnum exOrd = .ok f := by
    unfold Pattern.toPauliFlow Pattern.toXZCorrections StdPattern.toXZCorrections
    simp only [stdExampleSP_eq, stdExampleSP_og, bind, Except.bind]
    exact ⟨_, rfl⟩
  refine C61_simulate_partial stdExample stdExample_outputsOk stdExample_noSelfLoop ?_ stdExample_plus stdExampleSP stdExampleSP_eq exEnum
    exEnum_valid exOrd exOrd_valid ?_ f hf exampleEnv' _ (exampleEnv_okAll _) ?_ (.state ⟨.XZ, 1/3⟩) false false ?_ (by simp) (by simp) _ _ ?_ ?_
  · intro n d hn
    have h' : Command.S n d ∈ [Command.N 1 .plus, .E 0 1, .M 0 (.bloch ⟨1/4, .XY⟩) ∅ ∅, .X 1 {0},
      .N 2 .plus, .E 1 2, .M 1 (.bloch ⟨1/8, .XY⟩) ∅ ∅, .X 2 {1}] := hn
    simp at h'
  · exact stdExample_inputs
  · exact ⟨fun k n s _ h => (by cases h), exampleEnv_ok.cz, exampleEnv_ok.op, exampleEnv_ok.exp, exampleEnv_ok.proj⟩
  · exact trivial
  · exact fun _ _ => ⟨_, rfl⟩
  · exact fun _ _ => ⟨_, rfl⟩

end Graphix
