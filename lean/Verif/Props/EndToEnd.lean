import Verif.Proofs.EndToEnd

/-!
# Property C59: transpiling a circuit and simulating the pattern gives what simulating the circuit gives
-/

namespace Graphix

open Function

/-- `transpile(transpile_swaps=False)` gives a pattern that realizes the circuit. -/
theorem transpileKeepSwaps_realizes {c : Circuit} (hc : c.Built) (hp : ∀ i ∈ c.instrs, i.Proper ∧ ¬ i.isId) {ord : SetOrd} (hord : ord.Valid)
    {eord : List (ℕ × ℕ) → List (ℕ × ℕ)} (he : EdgeOrd.Valid eord) {nbr : Finset (Sym2 ℕ) → ℕ → List ℕ} (hnbr : NbrOrd.Valid nbr)
    {res : TranspiledPattern} (h : c.transpileKeepSwaps ord eord nbr = .ok res) :
    ∃ σ k, Realizes c res.pattern σ k ∧ res.classicalOutputs = (circMeasured c.instrs).map σ ∧
      k + res.classicalOutputs.length = (measuredIn res.pattern.seq).length ∧ ∀ n ∈ res.classicalOutputs, n ∈ measuredIn res.pattern.seq := by
  obtain ⟨res', h1, ⟨h2, h3, h4, h4'⟩, h5, h6, σ, h7, h8, h9, k, hk, h10⟩ := transpile_full c hc hp ord hord eord he nbr hnbr
  obtain rfl := Except.ok.inj (h.symm.trans h1)
  exact ⟨σ, k, ⟨h2, h3, h4, h5, h6, h7, by rw [C58_active c hc]; exact h8, fun r => by have := h10 r; rw [h9] at this; exact this⟩, h9, hk, h4'⟩

/-- `transpile()` gives a pattern that realizes the circuit. -/
theorem transpile_realizes {c : Circuit} (hc : c.Built) (hp : ∀ i ∈ c.instrs, i.Proper ∧ ¬ i.isId) {ord : SetOrd} (hord : ord.Valid)
    {eord : List (ℕ × ℕ) → List (ℕ × ℕ)} (he : EdgeOrd.Valid eord) {nbr : Finset (Sym2 ℕ) → ℕ → List ℕ} (hnbr : NbrOrd.Valid nbr)
    {res : TranspiledPattern} (h : c.transpile ord eord nbr = .ok res) :
    ∃ σ k, Realizes c res.pattern σ k ∧ res.classicalOutputs = ((Finset.range c.width \ c.active).sort (· ≤ ·)).map σ ∧
      k + res.classicalOutputs.length = (measuredIn res.pattern.seq).length := by
  obtain ⟨sw, -, g1, g2⟩ := transpile_default_full c hc hp ord hord eord he nbr hnbr
  by_cases ha : sw.circuit.active = c.active
  · obtain ⟨res', h1, ⟨h2, h3, h4⟩, h5, h6, σ, h7, h8, h9, k, hk, h10⟩ := g2 ha
    obtain rfl := Except.ok.inj (h.symm.trans h1)
    exact ⟨σ, k, ⟨h2, h3, h4, h5, h6, h7, by rw [C58_active c hc]; exact h8, h10⟩, h9, hk⟩
  · rw [g1 ha] at h; cases h

/-- The outcome of the `j`-th measurement, by qubit. -/
theorem circRecord_get {l : List Instr} {ms : List Bool} (hn : (circMeasured l).Nodup) (hlen : ms.length = (circMeasured l).length) {j q : ℕ}
    (hj : (circMeasured l)[j]? = some q) : (circRecord l ms).get? q = some (outcomeOf ms j) := by
  unfold circRecord
  generalize circMeasured l = qs at hn hlen hj
  have key : ∀ (qs : List ℕ) (ms : List Bool) (d : PyDict ℕ Bool) (j : ℕ), qs.Nodup → ms.length = qs.length → qs[j]? = some q →
      ((qs.zip ms).foldl (fun d p => d.set p.1 p.2) d).get? q = some (outcomeOf ms j) := by
    intro qs
    induction qs with
    | nil => intro ms d j _ _ hj; simp at hj
    | cons a qs ih =>
      intro ms d j hn hlen hj
      cases ms with
      | nil => simp at hlen
      | cons m ms =>
        rw [List.zip_cons_cons, List.foldl_cons]
        rw [List.nodup_cons] at hn
        simp only [List.length_cons, Nat.add_right_cancel_iff] at hlen
        cases j with
        | zero =>
          simp only [List.getElem?_cons_zero, Option.some.injEq] at hj
          subst hj
          have stay : ∀ (zs : List (ℕ × Bool)) (d : PyDict ℕ Bool), a ∉ zs.map Prod.fst →
              (zs.foldl (fun d p => d.set p.1 p.2) d).get? a = d.get? a := by
            intro zs
            induction zs with
            | nil => intro d _; rfl
            | cons z zs ihz =>
              intro d hz
              simp only [List.map_cons, List.mem_cons, not_or] at hz
              rw [List.foldl_cons, ihz _ hz.2, PyDict.get?_set, if_neg (fun e => hz.1 e.symm)]
          rw [stay _ _ (by rw [List.map_fst_zip hlen.ge]; exact hn.1), PyDict.get?_set, if_pos rfl]
          rfl
        | succ j =>
          rw [ih ms _ j hn.2 hlen (by simpa using hj)]
          simp [outcomeOf]
  exact key qs ms [] j hn hlen hj

/-- The two state vectors have the same number of qubits, are normalised, and are equal up to a global phase. -/
def SameState (sv sv' : Statevector) : Prop :=
  sv.nqubit = sv'.nqubit ∧ normSq sv.nqubit sv.psi = 1 ∧ normSq sv'.nqubit sv'.psi = 1 ∧
    ∃ κ : ℂ, ‖κ‖ = 1 ∧ ∀ i < 2 ^ sv'.nqubit, sv.psi i = κ * sv'.psi i

/-- The two density matrices have the same size and the same entries. -/
def SameDensity (dm dm' : DensityMatrix) : Prop :=
  dm.rho.rows = dm'.rho.rows ∧ dm.rho.cols = dm'.rho.cols ∧
    ∀ i < dm'.rho.rows, ∀ j < dm'.rho.cols, dm.rho.entry i j = dm'.rho.entry i j

theorem Realizes.same {c : Circuit} {p : Pattern} {σ : ℕ → ℕ} {k : ℕ} (hc : c.Built) (h : Realizes c p σ k) (env env' : SimEnv)
    (henv : env.Ok p.seq) (henv' : env'.Ok []) (data : InputData) (plusObj plusObj' : Bool) (hd : data.Ok c.width)
    (hplus : plusObj = true → data = .state PlanarState.plus) (hplus' : plusObj' = true → data = .state PlanarState.plus)
    (junk junk' : ℕ → Buf) (st : SimState) (sv : Statevector) (ms : List Bool)
    (h1 : simulate env p data plusObj junk = .ok st) (h2 : c.simulate env' data plusObj' junk' = .ok (sv, ms))
    (ho : ∀ j q, (circMeasured c.instrs)[j]? = some q → st.results.get? (σ q) = some (outcomeOf ms j)) : SameState st.sv sv := by
  obtain ⟨a, b, c, d⟩ := h.runs_agree hc env env' henv henv' data plusObj plusObj' hd hplus hplus' junk junk' st sv ms h1 h2 ho
  exact ⟨a, by rw [a]; exact b, c, d⟩

/-- The numbers of outcomes agree. -/
theorem simulate_length {c : Circuit} (hc : c.Built) {env : SimEnv} (henv : env.Ok []) {data : InputData} {plusObj : Bool} (hd : data.Ok c.width)
    (hplus : plusObj = true → data = .state PlanarState.plus) {junk : ℕ → Buf} {sv : Statevector} {ms : List Bool}
    (h : c.simulate env data plusObj junk = .ok (sv, ms)) : ms.length = (circMeasured c.instrs).length := by
  rcases C58_simulate c hc env henv data plusObj hd hplus junk with ⟨sv', ms', b1, b2, -⟩ | ⟨e, b1, -⟩
  · obtain ⟨rfl, rfl⟩ := Prod.mk.inj (Except.ok.inj (h.symm.trans b1)); exact b2.1
  · rw [h] at b1; cases b1

theorem simulateDM_length {c : Circuit} (hc : c.Built) (hp : ∀ i ∈ c.instrs, i.Proper) {env : DMEnv} {data : DMData}
    (hd : data.Ok (List.range c.width)) {dm : DensityMatrix} {ms : List Bool}
    (h : c.simulateDM env data = .ok (dm, ms)) : ms.length = (circMeasured c.instrs).length := by
  rcases C58_simulateDM c hc hp env data hd with ⟨sv', ms', b1, b2, -⟩ | ⟨e, b1, -⟩
  · obtain ⟨rfl, rfl⟩ := Prod.mk.inj (Except.ok.inj (h.symm.trans b1)); exact b2.1
  · rw [h] at b1; cases b1

theorem outcomes_order {qs : List ℕ} {σ : ℕ → ℕ} {ms : List Bool} {f : ℕ → Option Bool} (h : (qs.map σ).map f = ms.map some) :
    ∀ j q, qs[j]? = some q → f (σ q) = some (outcomeOf ms j) := by
  intro j q hj
  have := congrArg (fun l => l[j]?) h
  simp only [List.getElem?_map, hj, Option.map_some] at this
  cases hm : ms[j]? with
  | none => rw [hm] at this; simp at this
  | some m =>
    rw [hm] at this
    simp only [Option.map_some, Option.some.injEq] at this
    rw [this]; simp [outcomeOf, List.getD, hm]

theorem outcomes_sorted {c : Circuit} (hc : c.Built) {σ : ℕ → ℕ} {ms : List Bool} (hlen : ms.length = (circMeasured c.instrs).length)
    {f : ℕ → Option Bool}
    (h : (((Finset.range c.width \ c.active).sort (· ≤ ·)).map σ).map f =
      ((Finset.range c.width \ c.active).sort (· ≤ ·)).map fun q => (circRecord c.instrs ms).get? q) :
    ∀ j q, (circMeasured c.instrs)[j]? = some q → f (σ q) = some (outcomeOf ms j) := by
  intro j q hj
  obtain ⟨hn, hlt⟩ := circMeasured_nodup hc.listOk.1
  have hq := List.mem_of_getElem? hj
  have hmem : q ∈ (Finset.range c.width \ c.active).sort (· ≤ ·) := by
    rw [Finset.mem_sort, Finset.mem_sdiff, hc.listOk.2, mem_afterList]
    exact ⟨hlt q hq, fun h => h.2 hq⟩
  rw [List.map_map, List.map_inj_left] at h
  have := h q hmem
  rw [← circRecord_get hn hlen hj]; exact this

/-- **C59** `transpile(transpile_swaps=False)` and then `simulate_pattern`, against `Circuit.simulate`, on the state-vector backend: for
every circuit built by the methods of the class without `i` whose gates act on distinct qubits, every normalised input, all branch
selectors, schedules and iteration orders: if the run of the pattern gives on its classical outputs the outcomes that the run of the
circuit gives, the two final states are equal up to a global phase. -/
theorem C59_transpile_keep_swaps_partial (c : Circuit) (hc : c.Built) (hp : ∀ i ∈ c.instrs, i.Proper ∧ ¬ i.isId) (ord : SetOrd) (hord : ord.Valid)
    (eord : List (ℕ × ℕ) → List (ℕ × ℕ)) (he : EdgeOrd.Valid eord) (nbr : Finset (Sym2 ℕ) → ℕ → List ℕ) (hnbr : NbrOrd.Valid nbr)
    (res : TranspiledPattern) (h : c.transpileKeepSwaps ord eord nbr = .ok res)
    (env env' : SimEnv) (henv : env.Ok res.pattern.seq) (henv' : env'.Ok []) (data : InputData) (plusObj plusObj' : Bool) (hd : data.Ok c.width)
    (hplus : plusObj = true → data = .state PlanarState.plus) (hplus' : plusObj' = true → data = .state PlanarState.plus)
    (junk junk' : ℕ → Buf) (st : SimState) (sv : Statevector) (ms : List Bool)
    (h1 : simulate env res.pattern data plusObj junk = .ok st) (h2 : c.simulate env' data plusObj' junk' = .ok (sv, ms))
    (ho : res.classicalOutputs.map st.results.get? = ms.map some) : SameState st.sv sv := by
  obtain ⟨σ, k, hr, hcl, -⟩ := transpileKeepSwaps_realizes hc hp hord he hnbr h
  rw [hcl] at ho
  exact hr.same hc env env' henv henv' data plusObj plusObj' hd hplus hplus' junk junk' st sv ms h1 h2 (outcomes_order ho)

/-- **C59** The same for `transpile()`, whose classical outputs are in the order of the measured qubits. -/
theorem C59_transpile_partial (c : Circuit) (hc : c.Built) (hp : ∀ i ∈ c.instrs, i.Proper ∧ ¬ i.isId) (ord : SetOrd) (hord : ord.Valid)
    (eord : List (ℕ × ℕ) → List (ℕ × ℕ)) (he : EdgeOrd.Valid eord) (nbr : Finset (Sym2 ℕ) → ℕ → List ℕ) (hnbr : NbrOrd.Valid nbr)
    (res : TranspiledPattern) (h : c.transpile ord eord nbr = .ok res)
    (env env' : SimEnv) (henv : env.Ok res.pattern.seq) (henv' : env'.Ok []) (data : InputData) (plusObj plusObj' : Bool) (hd : data.Ok c.width)
    (hplus : plusObj = true → data = .state PlanarState.plus) (hplus' : plusObj' = true → data = .state PlanarState.plus)
    (junk junk' : ℕ → Buf) (st : SimState) (sv : Statevector) (ms : List Bool)
    (h1 : simulate env res.pattern data plusObj junk = .ok st) (h2 : c.simulate env' data plusObj' junk' = .ok (sv, ms))
    (ho : res.classicalOutputs.map st.results.get? =
      ((Finset.range c.width \ c.active).sort (· ≤ ·)).map fun q => (circRecord c.instrs ms).get? q) : SameState st.sv sv := by
  obtain ⟨σ, k, hr, hcl, -⟩ := transpile_realizes hc hp hord he hnbr h
  rw [hcl] at ho
  exact hr.same hc env env' henv henv' data plusObj plusObj' hd hplus hplus' junk junk' st sv ms h1 h2
    (outcomes_sorted hc (simulate_length hc henv' hd hplus' h2) ho)

/-- **C59** For a circuit without measurements there is no condition: every run of the pattern of `transpile()` ends in the state of the
circuit. -/
theorem C59_unitary_partial (c : Circuit) (hc : c.Built) (hp : ∀ i ∈ c.instrs, i.Proper ∧ ¬ i.isId) (ord : SetOrd) (hord : ord.Valid)
    (eord : List (ℕ × ℕ) → List (ℕ × ℕ)) (he : EdgeOrd.Valid eord) (nbr : Finset (Sym2 ℕ) → ℕ → List ℕ) (hnbr : NbrOrd.Valid nbr)
    (res : TranspiledPattern) (h : c.transpile ord eord nbr = .ok res)
    (hm : circMeasured c.instrs = [])
    (env env' : SimEnv) (henv : env.Ok res.pattern.seq) (henv' : env'.Ok []) (data : InputData) (plusObj plusObj' : Bool) (hd : data.Ok c.width)
    (hplus : plusObj = true → data = .state PlanarState.plus) (hplus' : plusObj' = true → data = .state PlanarState.plus)
    (junk junk' : ℕ → Buf) (st : SimState) (sv : Statevector) (ms : List Bool)
    (h1 : simulate env res.pattern data plusObj junk = .ok st) (h2 : c.simulate env' data plusObj' junk' = .ok (sv, ms)) : SameState st.sv sv := by
  obtain ⟨σ, k, hr, hcl, -⟩ := transpile_realizes hc hp hord he hnbr h
  exact hr.same hc env env' henv henv' data plusObj plusObj' hd hplus hplus' junk junk' st sv ms h1 h2 (by rw [hm]; simp)

/-- **C59** Equal up to a phase: the fidelity is 1. -/
theorem C59_fidelity {sv sv' : Statevector} (h : SameState sv sv') : sv.fidelity sv' = .ok 1 := by
  obtain ⟨h1, h2, h3, κ, hκ, h4⟩ := h
  unfold Statevector.fidelity
  rw [if_neg (by simpa using h1)]
  congr 1
  rw [h1]
  have : ∑ i ∈ Finset.range (2 ^ sv'.nqubit), star (sv.psi i) * sv'.psi i = star κ := by
    have e : ∀ i ∈ Finset.range (2 ^ sv'.nqubit), star (sv.psi i) * sv'.psi i = star κ * (Complex.normSq (sv'.psi i) : ℂ) := by
      intro i hi
      rw [h4 i (Finset.mem_range.1 hi), star_mul', Complex.normSq_eq_conj_mul_self]
      simp only [← starRingEnd_apply]
      ring
    rw [Finset.sum_congr rfl e, ← Finset.mul_sum, ← Complex.ofReal_sum]
    unfold normSq at h3
    rw [h3]; simp
  rw [this, norm_star, hκ]; norm_num

/-- **C59** The same on the density-matrix backend (without noise), for every input density matrix: the final density matrices are
equal. -/
theorem C59_density_partial (c : Circuit) (hc : c.Built) (hp : ∀ i ∈ c.instrs, i.Proper ∧ ¬ i.isId) (ord : SetOrd) (hord : ord.Valid)
    (eord : List (ℕ × ℕ) → List (ℕ × ℕ)) (he : EdgeOrd.Valid eord) (nbr : Finset (Sym2 ℕ) → ℕ → List ℕ) (hnbr : NbrOrd.Valid nbr)
    (res : TranspiledPattern) (h : c.transpile ord eord nbr = .ok res)
    (env env' : DMEnv) (data : DMData) (hd : data.Ok (List.range c.width)) (st : DMState) (dm : DensityMatrix) (ms : List Bool)
    (h1 : simulateDM env res.pattern none data = .ok st) (h2 : c.simulateDM env' data = .ok (dm, ms))
    (ho : res.classicalOutputs.map st.results.get? =
      ((Finset.range c.width \ c.active).sort (· ≤ ·)).map fun q => (circRecord c.instrs ms).get? q) : SameDensity st.dm dm := by
  obtain ⟨σ, k, hr, hcl, -⟩ := transpile_realizes hc hp hord he hnbr h
  rw [hcl] at ho
  exact hr.runs_agreeDM hc (fun i hi => (hp i hi).1) env env' data hd st dm ms h1 h2
    (outcomes_sorted hc (simulateDM_length hc (fun i hi => (hp i hi).1) hd h2) ho)

/-- **C59** The same with `transpile_swaps=False`. -/
theorem C59_density_keep_swaps_partial (c : Circuit) (hc : c.Built) (hp : ∀ i ∈ c.instrs, i.Proper ∧ ¬ i.isId) (ord : SetOrd) (hord : ord.Valid)
    (eord : List (ℕ × ℕ) → List (ℕ × ℕ)) (he : EdgeOrd.Valid eord) (nbr : Finset (Sym2 ℕ) → ℕ → List ℕ) (hnbr : NbrOrd.Valid nbr)
    (res : TranspiledPattern) (h : c.transpileKeepSwaps ord eord nbr = .ok res)
    (env env' : DMEnv) (data : DMData) (hd : data.Ok (List.range c.width)) (st : DMState) (dm : DensityMatrix) (ms : List Bool)
    (h1 : simulateDM env res.pattern none data = .ok st) (h2 : c.simulateDM env' data = .ok (dm, ms))
    (ho : res.classicalOutputs.map st.results.get? = ms.map some) : SameDensity st.dm dm := by
  obtain ⟨σ, k, hr, hcl, -⟩ := transpileKeepSwaps_realizes hc hp hord he hnbr h
  rw [hcl] at ho
  exact hr.runs_agreeDM hc (fun i hi => (hp i hi).1) env env' data hd st dm ms h1 h2 (outcomes_order ho)

/-- **C59** The outcomes are distributed alike: the probability that the measurements of the pattern give the outcomes `r` is the
probability that the measurements of the circuit give the outcomes that `r` gives to the classical outputs, times `1/2` for each of the other
measurements. -/
theorem C59_probability_partial (c : Circuit) (hc : c.Built) (hp : ∀ i ∈ c.instrs, i.Proper ∧ ¬ i.isId) (ord : SetOrd) (hord : ord.Valid)
    (eord : List (ℕ × ℕ) → List (ℕ × ℕ)) (he : EdgeOrd.Valid eord) (nbr : Finset (Sym2 ℕ) → ℕ → List ℕ) (hnbr : NbrOrd.Valid nbr)
    (res : TranspiledPattern) (h : c.transpileKeepSwaps ord eord nbr = .ok res)
    (data : InputData) (r : ℕ → Bool) :
    (branchProb res.pattern.inputs (data.toState (List.range c.width)) res.pattern.seq r : ℂ) =
      (1 / 2) ^ ((measuredIn res.pattern.seq).length - res.classicalOutputs.length) *
        circProb c.width (ketBra (data.toState (List.range c.width))) c.instrs (res.classicalOutputs.map r) := by
  obtain ⟨σ, k, hr, hcl, hk, hcm⟩ := transpileKeepSwaps_realizes hc hp hord he hnbr h
  have e : (measuredIn res.pattern.seq).length - res.classicalOutputs.length = k := by omega
  rw [e, hr.prob hc r (toState_on _ data) (res.classicalOutputs.map r)]
  intro j q hj
  rw [hcl]
  simp [outcomeOf, List.getD, hj]

/-- **C59** The same for `transpile()`; `ms` are outcomes of the circuit, in the order of its measurements, that give to each measured qubit
the outcome that `r` gives to its classical output. -/
theorem C59_probability_default_partial (c : Circuit) (hc : c.Built) (hp : ∀ i ∈ c.instrs, i.Proper ∧ ¬ i.isId) (ord : SetOrd) (hord : ord.Valid)
    (eord : List (ℕ × ℕ) → List (ℕ × ℕ)) (he : EdgeOrd.Valid eord) (nbr : Finset (Sym2 ℕ) → ℕ → List ℕ) (hnbr : NbrOrd.Valid nbr)
    (res : TranspiledPattern) (h : c.transpile ord eord nbr = .ok res)
    (data : InputData) (r : ℕ → Bool) (ms : List Bool) (hlen : ms.length = (circMeasured c.instrs).length)
    (ho : res.classicalOutputs.map (fun n => some (r n)) =
      ((Finset.range c.width \ c.active).sort (· ≤ ·)).map fun q => (circRecord c.instrs ms).get? q) :
    (branchProb res.pattern.inputs (data.toState (List.range c.width)) res.pattern.seq r : ℂ) =
      (1 / 2) ^ ((measuredIn res.pattern.seq).length - res.classicalOutputs.length) *
        circProb c.width (ketBra (data.toState (List.range c.width))) c.instrs ms := by
  obtain ⟨σ, k, hr, hcl, hk⟩ := transpile_realizes hc hp hord he hnbr h
  have e : (measuredIn res.pattern.seq).length - res.classicalOutputs.length = k := by omega
  rw [hcl] at ho
  rw [e, hr.prob hc r (toState_on _ data) ms]
  intro j q hj
  have := outcomes_sorted hc hlen ho j q hj
  exact (Option.some.inj this).symm

/-- A state of the nodes of a list whose norm is zero is zero. -/
theorem OnNodes.eq_zero {l : List ℕ} {φ : QState} (h : OnNodes l φ) (h0 : stateNormSq l φ = 0) : φ = 0 := by
  funext b
  unfold stateNormSq at h0
  rw [Finset.sum_eq_zero_iff_of_nonneg (fun _ _ => Complex.normSq_nonneg _)] at h0
  have := h0 (l.toFinset.filter fun n => b n = true) (Finset.mem_powerset.2 (Finset.filter_subset _ _))
  rw [Complex.normSq_eq_zero] at this
  rw [h b _ (fun n hn => ?_), this]
  · rfl
  · cases hb : b n <;> simp [hn, hb]

/-- **C59** The condition on the outcomes can always be met: for every run of the pattern on the density-matrix backend there is a run of the
circuit with the same outcomes (the branch selector of the circuit answers with the outcomes of the pattern). -/
theorem C59_coupling_partial (c : Circuit) (hc : c.Built) (hp : ∀ i ∈ c.instrs, i.Proper ∧ ¬ i.isId) (ord : SetOrd) (hord : ord.Valid)
    (eord : List (ℕ × ℕ) → List (ℕ × ℕ)) (he : EdgeOrd.Valid eord) (nbr : Finset (Sym2 ℕ) → ℕ → List ℕ) (hnbr : NbrOrd.Valid nbr)
    (res : TranspiledPattern) (h : c.transpileKeepSwaps ord eord nbr = .ok res)
    (env : DMEnv) (data : InputData) (hd : data.Ok c.width) (st : DMState) (h1 : simulateDM env res.pattern none (.pure data) = .ok st) :
    ∃ env' dm ms, c.simulateDM env' (.pure data) = .ok (dm, ms) ∧ res.classicalOutputs.map st.results.get? = ms.map some ∧
      SameDensity st.dm dm := by
  obtain ⟨σ, k, hr, hcl, hk, hcm⟩ := transpileKeepSwaps_realizes hc hp hord he hnbr h
  have hp' := fun i hi => (hp i hi).1
  set ψ := data.toState (List.range c.width) with hψ
  rcases C57_noiseless env res.pattern hr.ok hr.run hr.noS (fun u hu => hr.noLoop u u hu rfl) data (by rw [hr.inputs]; simpa using hd) with
    ⟨st', a1, -, a2, a3⟩ | ⟨e, a1, -⟩
  swap
  · rw [h1] at a1; cases a1
  obtain rfl := Except.ok.inj (h1.symm.trans a1)
  obtain ⟨r, hagr⟩ := exists_agrees st.results
  obtain ⟨a4, -⟩ := a3 r hagr
  rw [hr.inputs, ← hr.inputs] at a4
  have hpos : circProb c.width (ketBra ψ) c.instrs (res.classicalOutputs.map r) ≠ 0 := by
    intro h0
    have := C59_probability_partial c hc hp ord hord eord he nbr hnbr res h data r
    rw [← hψ, h0, mul_zero] at this
    rw [hr.inputs, ← hψ] at a4
    rw [hr.inputs] at this
    have h2 : branchProb (List.range c.width) ψ res.pattern.seq r = 0 := by exact_mod_cast this
    rw [h2] at a4; exact lt_irrefl _ a4
  let env' : DMEnv := { env with sel := fun _ n _ => .ok (r (σ n)) }
  have hsel : ∀ d n x, env'.sel d n x = .ok (r (σ n)) := fun _ _ _ => rfl
  -- outcomes chosen by this selector
  have chosen : ∀ pre post ms, c.instrs = pre ++ post → CircChosen env'.sel c.width (ketBra ψ) pre ms →
      ms = (circMeasured pre).map fun q => r (σ q) := by
    intro pre post ms hpre hch
    refine List.ext_getElem (by rw [List.length_map]; exact hch.1) fun j hj hj' => ?_
    rw [List.length_map] at hj'
    have split : ∀ (pre : List Instr) (j : ℕ) (hj : j < (circMeasured pre).length), ∃ p1 t a p2, pre = p1 ++ .M t a :: p2 ∧
        (circMeasured p1).length = j ∧ (circMeasured pre)[j] = t := by
      intro pre
      induction pre with
      | nil => intro j hj; simp [circMeasured] at hj
      | cons i pre ih =>
        intro j hj
        by_cases hg : i.isGate
        · have e : circMeasured (i :: pre) = circMeasured pre := by
            rw [show i :: pre = [i] ++ pre from rfl, circMeasured_append, circMeasured_gate hg]; rfl
          obtain ⟨p1, t, a, p2, x1, x2, x3⟩ := ih j (by rw [e] at hj; exact hj)
          refine ⟨i :: p1, t, a, p2, by rw [x1]; rfl, ?_, ?_⟩
          · rw [show i :: p1 = [i] ++ p1 from rfl, circMeasured_append, circMeasured_gate hg]; exact x2
          · simp only [e]; exact x3
        · cases i <;> first | exact absurd trivial hg | skip
          rename_i t a
          have e : circMeasured (.M t a :: pre) = t :: circMeasured pre := rfl
          cases j with
          | zero => exact ⟨[], t, a, pre, rfl, rfl, by simp only [e]; rfl⟩
          | succ j =>
            rw [e] at hj
            obtain ⟨p1, t', a', p2, x1, x2, x3⟩ := ih j (by simpa using hj)
            refine ⟨.M t a :: p1, t', a', p2, by rw [x1]; rfl, ?_, ?_⟩
            · have : circMeasured (.M t a :: p1) = t :: circMeasured p1 := rfl
              rw [this, List.length_cons, x2]
            · simp only [e, List.getElem_cons_succ]; exact x3
    obtain ⟨p1, t, a, p2, x1, x2, x3⟩ := split pre j hj'
    obtain ⟨p0, -, -, -, -, hs⟩ := hch.2 p1 t a p2 x1
    rw [x2, hsel] at hs
    rw [List.getElem_map, x3]
    have := Except.ok.inj hs
    rw [this]; simp [outcomeOf, List.getD, hj]
  have hmap : res.classicalOutputs.map r = (circMeasured c.instrs).map fun q => r (σ q) := by rw [hcl, List.map_map]; rfl
  rcases C58_simulateDM c hc hp' env' (.pure data) (by show data.Ok _; simpa using hd) with ⟨dm, ms, b1, b2, -⟩ | ⟨e, -, pre, t, a, post, ms, b1, b2, b3⟩
  · have hms := chosen c.instrs [] ms (by simp) b2
    have ho : res.classicalOutputs.map st.results.get? = ms.map some := by
      rw [hms, ← hmap, List.map_map]
      refine List.map_congr_left fun n hn => ?_
      -- classical outputs are measured
      have hmeas : n ∈ measuredIn res.pattern.seq := hcm n hn
      obtain ⟨o, hn'⟩ := (a2 n).2 hmeas
      rw [hn']
      simp [hagr n o hn']
    exact ⟨env', dm, ms, b1, ho, C59_density_keep_swaps_partial c hc hp ord hord eord he nbr hnbr res h env env' (.pure data)
      (by show data.Ok _; simpa using hd) st dm ms h1 b1 ho⟩
  · exfalso
    have hms := chosen pre _ ms b1 b2
    rcases b3 with ⟨p0, -, -, -, -, hs⟩ | ⟨o, ⟨p0, -, -, -, -, hs⟩, -, hz⟩
    · rw [hsel] at hs; cases hs
    · rw [hsel] at hs
      have hz0 : circProb c.width (ketBra ψ) (pre ++ [.M t a]) (ms ++ [o]) = 0 := by
        rw [zero_mul] at hz; exact norm_le_zero_iff.1 hz
      have hl := hc.listOk.1
      have hl' : c.instrs = (pre ++ [.M t a]) ++ post := by rw [b1]; simp
      rw [hl', Circuit.listOk_append] at hl
      rw [circProb_pure] at hz0
      have hzero := (semInstrs_on (outcomeOf (ms ++ [o])) c.width (toState_on (List.range c.width) data) _ hl.1).eq_zero
        (by exact_mod_cast hz0)
      apply hpos
      have hst : circState ψ c.instrs (res.classicalOutputs.map r) = 0 := by
        unfold circState
        rw [hl', semInstrs_append]
        have e1 : semInstrs (outcomeOf (res.classicalOutputs.map r)) 0 (pre ++ [.M t a]) ψ =
            semInstrs (outcomeOf (ms ++ [o])) 0 (pre ++ [.M t a]) ψ := by
          have e2 : res.classicalOutputs.map r = (ms ++ [o]) ++ (circMeasured post).map fun q => r (σ q) := by
            rw [hmap, hl', circMeasured_append, circMeasured_append, circMeasured_M, hms, ← Except.ok.inj hs]; simp
          refine semInstrs_congr _ _ _ 0 ψ fun j _ hj => ?_
          have hlen : j < (ms ++ [o]).length := by
            rw [circMeasured_append, circMeasured_M] at hj
            rw [hms]; simpa using hj
          rw [e2]
          simp only [outcomeOf, List.getD, List.getElem?_append_left hlen]
        rw [e1, hzero]
        have := (semInstrs_lin (outcomeOf (res.classicalOutputs.map r)) post (0 + (circMeasured (pre ++ [.M t a])).length)).smul 0 0
        simpa using this
      rw [circProb_pure, hst]
      simp [stateNormSq]

end Graphix
