import Verif.Proofs.BranchProb
import Verif.Props.EndToEnd

/-!
# Property C10 (probabilities of the branches) and property C59 for unitary circuits, without a condition on the runs
-/

namespace Graphix

open Function

theorem branchProb_nil {inputs : List ℕ} (hi : inputs.Nodup) (data : InputData) (hd : data.Ok inputs.length) (r : ℕ → Bool) :
    branchProb inputs (data.toState inputs) [] r = 1 := by
  obtain ⟨sv, -, -, h3, h4⟩ := init_ok inputs data hd
  unfold branchProb
  rw [stateNormSq_mem (nodup_liveList _ _) hi (fun n => by rw [mem_liveList]; simp [Live, introduced, measuredIn]), semCmds_nil, ← h3,
    stateNormSq_abs _ hi, h4]

/-- **C10** The probabilities of the branches of a runnable pattern, one for each set `S` of measured nodes that give the outcome 1, sum to 1,
for every normalised input. -/
theorem C10_total_probability (p : Pattern) (hi : p.inputs.Nodup) (hrun : p.checkRunnability = .ok ()) (data : InputData)
    (hd : data.Ok p.inputs.length) :
    ∑ S ∈ (measuredIn p.seq).toFinset.powerset, branchProb p.inputs (data.toState p.inputs) p.seq (fun n => decide (n ∈ S)) = 1 := by
  rw [← branchProb_nil hi data hd (branchOnes ∅)]
  exact branchProb_sum (toState_on _ data) p.seq ((checkRunnability_iff p).1 hrun)

/-- **C10** When the branches of the pattern are equally likely, no choice of the branch selector makes the run fail: a run fails only if the
branch selector raises. -/
theorem C10_uniform (env : SimEnv) (p : Pattern) (henv : env.Ok p.seq) (hp : p.OutputsOk)
    (hrun : p.checkRunnability = .ok ()) (hS : ∀ n d, Command.S n d ∉ p.seq) (data : InputData) (plusObj : Bool)
    (hd : data.Ok p.inputs.length) (hplus : plusObj = true → data = .state PlanarState.plus) (junk : ℕ → Buf)
    (hu : ∀ r r', branchProb p.inputs (data.toState p.inputs) p.seq r = branchProb p.inputs (data.toState p.inputs) p.seq r')
    (hsel : ∀ results n, ∃ o, env.sel results n (1 / 2) = .ok o) :
    ∃ st, simulate env p data plusObj junk = .ok st ∧ st.idx.list = p.outputs := by
  rcases C10_run env p henv hp hrun hS data plusObj hd hplus junk with ⟨st, h1, h2, -⟩ | ⟨e, -, h⟩
  · exact ⟨st, h1, h2⟩
  · exfalso
    have hR := (checkRunnability_iff p).1 hrun
    obtain ⟨pre, n, m, s, t, post, hseq, results, p0, -, -, hres, hprob, hfail⟩ := h
    set ψ := data.toState p.inputs with hψ
    have hon : OnNodes p.inputs ψ := toState_on _ data
    set C := branchProb p.inputs ψ p.seq (fun _ => false) with hC
    have hall : ∀ r, branchProb p.inputs ψ p.seq r = C := fun r => hu r _
    obtain ⟨r, hr⟩ := exists_agrees results
    have e0 := branchProb_prefix hon p.seq [] (by simpa using hR) (by simpa using hall) (fun _ => false)
    rw [branchProb_nil hp.inputs_nodup data hd] at e0
    have hC0 : C ≠ 0 := by rintro hz; rw [hz] at e0; simp at e0
    have e1 := branchProb_prefix hon (.M n m s t :: post) pre (by rw [← hseq]; exact hR) (by rw [← hseq]; exact hall) r
    have hseq' : p.seq = (pre ++ [.M n m s t]) ++ post := by rw [hseq]; simp
    have e2 := branchProb_prefix hon post (pre ++ [.M n m s t]) (by rw [← hseq']; exact hR) (by rw [← hseq']; exact hall)
    have hlen : (measuredIn (.M n m s t :: post)).length = (measuredIn post).length + 1 := by simp [measuredIn, Command.measured?]
    have e3 := hprob r hr
    rw [e1, e2, hlen, pow_succ] at e3
    have hpos : (2 : ℝ) ^ (measuredIn post).length * C ≠ 0 := mul_ne_zero (by positivity) hC0
    have e4 : (if r n then 1 - p0 else p0) = 1 / 2 := by
      have : (2 : ℝ) ^ (measuredIn post).length * C * (2 * (if r n then 1 - p0 else p0) - 1) = 0 := by linear_combination -e3
      rcases mul_eq_zero.1 this with h | h
      · exact absurd h hpos
      · linarith
    have hp0 : p0 = 1 / 2 := by
      by_cases hn : r n = true
      · rw [if_pos hn] at e4; linarith
      · rw [if_neg hn] at e4; exact e4
    subst hp0
    obtain ⟨o, ho⟩ := hsel results n
    rw [ho] at hfail
    rcases hfail with h | ⟨o', -, -, h⟩
    · cases h
    · have : (if o' then 1 - (1 / 2 : ℝ) else 1 / 2) = 1 / 2 := by cases o' <;> norm_num
      rw [this] at h
      unfold atol at h
      norm_num at h

/-- **C59** For every circuit without measurements and without `i`, whose gates act on distinct qubits: `transpile()` succeeds, and every run
of its pattern on every normalised input, whatever outcomes the branch selector chooses, ends in the state that `Circuit.simulate` gives:
the fidelity of the two states is 1. -/
theorem C59_unitary_total_partial (c : Circuit) (hc : c.Built) (hp : ∀ i ∈ c.instrs, i.Proper ∧ ¬ i.isId) (hm : circMeasured c.instrs = [])
    (ord : SetOrd) (hord : ord.Valid)
    (eord : List (ℕ × ℕ) → List (ℕ × ℕ)) (he : EdgeOrd.Valid eord) (nbr : Finset (Sym2 ℕ) → ℕ → List ℕ) (hnbr : NbrOrd.Valid nbr) :
    ∃ res, c.transpile ord eord nbr = .ok res ∧ res.classicalOutputs = [] ∧
      ∀ (env env' : SimEnv) (_ : env.Ok res.pattern.seq) (_ : env'.Ok []) (data : InputData) (plusObj plusObj' : Bool) (_ : data.Ok c.width)
        (_ : plusObj = true → data = .state PlanarState.plus) (_ : plusObj' = true → data = .state PlanarState.plus) (junk junk' : ℕ → Buf)
        (_ : ∀ results n, ∃ o, env.sel results n (1 / 2) = .ok o),
        ∃ st sv, simulate env res.pattern data plusObj junk = .ok st ∧ c.simulate env' data plusObj' junk' = .ok (sv, []) ∧
          st.sv.fidelity sv = .ok 1 := by
  obtain ⟨sw, h1, h2⟩ := C37_transpile_default_no_measure c hc (Or.inl hm)
  obtain ⟨sw', h1', -, h3⟩ := transpile_default_full c hc hp ord hord eord he nbr hnbr
  obtain rfl := Except.ok.inj (h1.symm.trans h1')
  obtain ⟨res, hres, -⟩ := h3 h2
  obtain ⟨σ, k, hr, hcl, hk⟩ := transpile_realizes hc hp hord he hnbr hres
  have hcl0 : res.classicalOutputs = [] := by
    rw [hcl]
    have : Finset.range c.width \ c.active = ∅ := by
      rw [hc.listOk.2]
      ext q
      simp only [Finset.mem_sdiff, Finset.mem_range, Finset.notMem_empty, iff_false, not_and, not_not]
      intro hq
      rw [mem_afterList]
      exact ⟨by simpa using hq, by change q ∉ circMeasured c.instrs; rw [hm]; simp⟩
    rw [this]; simp
  refine ⟨res, hres, hcl0, ?_⟩
  intro env env' henv henv' data plusObj plusObj' hd hplus hplus' junk junk' hsel
  have hd' : data.Ok res.pattern.inputs.length := by rw [hr.inputs]; simpa using hd
  have hprob := fun r => hr.prob hc r (toState_on (List.range c.width) data) [] (by rw [hm]; simp)
  obtain ⟨st, a1, -⟩ := C10_uniform env res.pattern henv hr.ok hr.run hr.noS data plusObj hd' hplus junk
    (fun r r' => by
      apply Complex.ofReal_injective
      have e1 := hprob r
      have e2 := hprob r'
      rw [hr.inputs] at e1 e2 ⊢
      rw [e1, e2]) hsel
  have hsim : ∃ sv, c.simulate env' data plusObj' junk' = .ok (sv, []) := by
    rcases C58_simulate c hc env' henv' data plusObj' hd hplus' junk' with ⟨sv, ms, b1, b2, -⟩ | ⟨e, -, pre, t, a, post, ms, b1, -⟩
    · have := b2.1
      rw [hm] at this
      obtain rfl := List.length_eq_zero_iff.1 this
      exact ⟨sv, b1⟩
    · exfalso
      rw [b1, circMeasured_append] at hm
      simp [circMeasured] at hm
  obtain ⟨sv, b1⟩ := hsim
  exact ⟨st, sv, a1, b1, C59_fidelity (C59_unitary_partial c hc hp ord hord eord he nbr hnbr res hres hm env env' henv henv' data plusObj
    plusObj' hd hplus hplus' junk junk' st sv [] a1 b1)⟩

/-! ### Examples -/

/-- A circuit without measurements. -/
noncomputable def exUnitary : Circuit := ⟨2, [.H 0, .CNOT 0 1, .SWAP 0 1, .RZ 1 (1/3)], {0, 1}⟩

theorem exUnitary_built : exUnitary.Built :=
  ⟨2, exUnitary.instrs, Circuit.extend_ok_iff.2
    ⟨by simp [exUnitary, Circuit.listOk, Circuit.instrOk, Instr.after, Circuit.new], rfl⟩⟩

theorem exUnitary_proper : ∀ i ∈ exUnitary.instrs, i.Proper ∧ ¬ i.isId := by
  simp [exUnitary, Instr.Proper, Instr.isId]

/-- The environment of the example, without the shortcut for `|+⟩`. -/
noncomputable def exampleEnv' : SimEnv := { exampleEnv with isPlus := fun _ => false }

theorem exampleEnv_okAll (seq : List Command) : exampleEnv'.Ok seq where
  plus := by intro k n s _ h; cases h
  cz := exampleEnv_ok.cz
  op := exampleEnv_ok.op
  exp := exampleEnv_ok.exp
  proj := exampleEnv_ok.proj

example : ∃ res st sv, exUnitary.transpile exOrd id sortedNbr = .ok res ∧
    simulate exampleEnv' res.pattern (.state PlanarState.plus) false (fun _ _ => 7) = .ok st ∧
    exUnitary.simulate exampleEnv' (.state PlanarState.plus) true (fun _ _ => 3) = .ok (sv, []) ∧ st.sv.fidelity sv = .ok 1 := by
  obtain ⟨res, h1, -, h2⟩ := C59_unitary_total_partial exUnitary exUnitary_built exUnitary_proper rfl exOrd exOrd_valid id idEdgeOrd_valid
    sortedNbr sortedNbr_valid
  obtain ⟨st, sv, h3⟩ := h2 exampleEnv' exampleEnv' (exampleEnv_okAll _) (exampleEnv_okAll _) (.state PlanarState.plus) false true trivial
    (by simp) (by simp) (fun _ _ => 7) (fun _ _ => 3) (fun _ _ => ⟨_, rfl⟩)
  exact ⟨res, st, sv, h1, h3⟩

/-- A circuit with a measurement: there are runs of the pattern and of the circuit with the same outcomes. -/
example : ∃ res st env' dm ms, exCircuit.transpileKeepSwaps exOrd id sortedNbr = .ok res ∧
    simulateDM exampleDMEnv res.pattern none (.pure (.state PlanarState.plus)) = .ok st ∧
    exCircuit.simulateDM env' (.pure (.state PlanarState.plus)) = .ok (dm, ms) ∧
    res.classicalOutputs.map st.results.get? = ms.map some ∧ SameDensity st.dm dm := by
  obtain ⟨res, h1, ⟨h2, h3, h4, -⟩, h5, -⟩ :=
    transpile_full exCircuit exCircuit_built exCircuit_proper exOrd exOrd_valid id idEdgeOrd_valid sortedNbr sortedNbr_valid
  obtain ⟨seq, st, out, -, h6, -⟩ := C57_no_failure exampleDMEnv res.pattern h2 h5 h3 (fun u hu => h4 u u hu rfl) none (by simp)
    (.pure (.state PlanarState.plus)) trivial (by
      intro _ _ p0 h0 h1
      refine ⟨_, rfl, ?_⟩
      by_cases h : p0 < 1 / 2
      · simp only [h, decide_true, if_true]; linarith
      · simp only [h, decide_false, Bool.false_eq_true, if_false]; linarith)
  obtain ⟨env', dm, ms, h7, h8, h9⟩ := C59_coupling_partial exCircuit exCircuit_built exCircuit_proper exOrd exOrd_valid id idEdgeOrd_valid
    sortedNbr sortedNbr_valid res h1 exampleDMEnv (.state PlanarState.plus) trivial st h6
  exact ⟨res, st, env', dm, ms, h1, h6, h7, h8, h9⟩

end Graphix
