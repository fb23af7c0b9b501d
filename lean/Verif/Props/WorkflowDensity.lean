import Verif.Props.WorkflowCircuit
import Verif.Props.BackendsAgree

/-!
# Properties C57 and C79: deterministic patterns and scripts on the density-matrix backend
-/

namespace Graphix

open Function

theorem ketBra_unit {c : ℂ} (hc : ‖c‖ = 1) (ψ : QState) : ketBra (c • ψ) = ketBra ψ := by
  funext b b'
  have h : c * star c = 1 := by
    have := Complex.mul_conj c
    rw [Complex.normSq_eq_norm_sq, hc] at this
    simpa using this
  simp only [ketBra, Pi.smul_apply, smul_eq_mul, star_mul']
  linear_combination (ψ b * star (ψ b')) * h

theorem ketBra_scalar (c : ℂ) (ψ : QState) : ketBra (c • ψ) = (Complex.normSq c : ℂ) • ketBra ψ := by
  funext b b'
  simp only [ketBra, Pi.smul_apply, smul_eq_mul, star_mul', ← Complex.mul_conj, starRingEnd_apply]
  ring

/-- Density matrices of the same nodes with the same entries. -/
theorem sameDensity_of_abs {l l' : List ℕ} (hl : l.Nodup) {dm dm' : DensityMatrix} (h : dm.Shape l'.length) (hlen : l'.length = l.length)
    (h' : dm'.Shape l.length) (e : absDens l dm.rho = absDens l dm'.rho) : SameDensity dm dm' := by
  rw [hlen] at h
  refine ⟨h.1.trans h'.1.symm, h.2.trans h'.2.symm, fun i hi j hj => ?_⟩
  rw [h'.1] at hi
  rw [h'.2] at hj
  obtain ⟨x, rfl⟩ := enc_map_surj (σ := id) hl (fun a _ b _ h => h) i hi
  obtain ⟨y, rfl⟩ := enc_map_surj (σ := id) hl (fun a _ b _ h => h) j hj
  have := congrFun (congrFun e x) y
  simpa [absDens] using this

/-- A noiseless run on the density-matrix backend. -/
theorem runDM_state {p : Pattern} (hp : p.OutputsOk) (hrun : p.checkRunnability = .ok ()) (hS : ∀ n d, Command.S n d ∉ p.seq)
    (hE : ∀ u, Command.E u u ∉ p.seq) {data : InputData} (hd : data.Ok p.inputs.length) {env : DMEnv} {st : DMState}
    (h : simulateDM env p none (.pure data) = .ok st) :
    st.dm.Shape p.outputs.length ∧ ∃ r, absDens p.outputs st.dm.rho = ((branchProb p.inputs (data.toState p.inputs) p.seq r)⁻¹ : ℂ) •
      ketBra (semCmds r p.seq (data.toState p.inputs)) := by
  obtain ⟨seq, -, -, ⟨st', out, a1, -, -, a2, -⟩ | ⟨e, a1, -⟩⟩ := C57_library env p hp hrun hS hE none (by simp) (.pure data) hd
  swap
  · rw [h] at a1; cases a1
  obtain rfl := Except.ok.inj (h.symm.trans a1)
  rcases C57_noiseless env p hp hrun hS hE data hd with ⟨st', b1, -, -, b2⟩ | ⟨e, b1, -⟩
  swap
  · rw [h] at b1; cases b1
  obtain rfl := Except.ok.inj (h.symm.trans b1)
  obtain ⟨r, hr⟩ := exists_agrees st.results
  exact ⟨a2, r, (b2 r hr).2⟩

/-- **C57** A deterministic pattern gives one density matrix: runs on the density-matrix backend, whatever outcomes they get, end in the same matrix,
and it is the matrix of the state in which the runs on the state-vector backend end. -/
theorem C57_deterministic (p : Pattern) (hp : p.OutputsOk) (hrun : p.checkRunnability = .ok ()) (hS : ∀ n d, Command.S n d ∉ p.seq)
    (hE : ∀ u, Command.E u u ∉ p.seq) (hdet : Deterministic p) (data : InputData) (hd : data.Ok p.inputs.length) (env : DMEnv) (st : DMState)
    (h : simulateDM env p none (.pure data) = .ok st) :
    (∀ (env' : DMEnv) (st' : DMState), simulateDM env' p none (.pure data) = .ok st' → SameDensity st.dm st'.dm) ∧
    ∀ (env' : SimEnv) (_ : env'.Ok p.seq) (plusObj : Bool) (_ : plusObj = true → data = .state PlanarState.plus) (junk : ℕ → Buf) (sv : SimState),
      simulate env' p data plusObj junk = .ok sv → absDens p.outputs st.dm.rho = ketBra (absState p.outputs sv.sv.psi) := by
  have hon : OnNodes p.inputs (data.toState p.inputs) := toState_on _ data
  have habs : Absent p.preparedNodes (data.toState p.inputs) := by
    refine hon.absent fun n hn hc => ?_
    have hnd := ((checkRunnability_iff p).1 hrun).introduced_nodup hp.inputs_nodup
    unfold introduced at hnd
    exact (List.nodup_append.1 hnd).2.2 n hn n (List.mem_toFinset.1 hc) rfl
  have hsb : SameBranches p (data.toState p.inputs) := by
    intro r r'
    obtain ⟨⟨c, hc, h⟩, -⟩ := hdet r r'
    exact ⟨c, hc, h _ habs⟩
  have one : ∀ {env : DMEnv} {st : DMState}, simulateDM env p none (.pure data) = .ok st → st.dm.Shape p.outputs.length ∧
      absDens p.outputs st.dm.rho = ((branchProb p.inputs (data.toState p.inputs) p.seq fun _ => false)⁻¹ : ℂ) •
        ketBra (semCmds (fun _ => false) p.seq (data.toState p.inputs)) := by
    intro env st h
    obtain ⟨h1, r, h2⟩ := runDM_state hp hrun hS hE hd h
    refine ⟨h1, ?_⟩
    obtain ⟨c, hc, e⟩ := hsb r fun _ => false
    rw [h2, hsb.prob r (fun _ => false), e, ketBra_unit hc]
  obtain ⟨s1, s2⟩ := one h
  refine ⟨fun env' st' h' => ?_, fun env' henv' plusObj hplus junk sv hsv => ?_⟩
  · obtain ⟨t1, t2⟩ := one h'
    exact sameDensity_of_abs hp.outputs_nodup s1 rfl t1 (s2.trans t2.symm)
  · rcases C10_run env' p henv' hp hrun hS data plusObj hd hplus junk with ⟨st', a1, -, -, a2, -, a3⟩ | ⟨e, a1, -⟩
    swap
    · rw [hsv] at a1; cases a1
    obtain rfl := Except.ok.inj (hsv.symm.trans a1)
    obtain ⟨r, hr⟩ := exists_agrees sv.results
    obtain ⟨b0, b1, c, b2⟩ := a3 r hr
    have hP : branchProb p.inputs (data.toState p.inputs) p.seq r = stateNormSq p.outputs (semCmds r p.seq (data.toState p.inputs)) :=
      stateNormSq_mem (nodup_liveList _ _) hp.outputs_nodup (fun n => by rw [mem_liveList, hp.outputs]) _
    rw [b2, stateNormSq_smul, ← hP] at b1
    have hne : branchProb p.inputs (data.toState p.inputs) p.seq r ≠ 0 := by
      intro h0; rw [h0, mul_zero] at b1; exact zero_ne_one b1
    obtain ⟨d, hd', e⟩ := hsb r fun _ => false
    rw [s2, b2, ketBra_scalar, e, ketBra_unit hd', hsb.prob (fun _ => false) r]
    congr 1
    rw [← Complex.ofReal_inv]
    norm_cast
    field_simp
    linarith

/-- A run of the optimized pattern on the density-matrix backend. -/
theorem Optimized.runDM_state {p q : Pattern} {w : ℕ} {σ : Equiv.Perm ℕ} (hp : Tidy p) (hq : Tidy q) (ho : Optimized p q w σ) {data : InputData}
    (hd : data.Ok p.inputs.length) (hsb : SameBranches p (data.toState p.inputs)) {env : DMEnv} {st : DMState}
    (h : simulateDM env q none (.pure data) = .ok st) :
    st.dm.Shape q.outputs.length ∧
      absDens p.outputs st.dm.rho = ((branchProb p.inputs (data.toState p.inputs) p.seq fun _ => false)⁻¹ : ℂ) •
        ketBra (semCmds (fun _ => false) p.seq (data.toState p.inputs)) := by
  obtain ⟨h1, r, h2⟩ := Graphix.runDM_state hq.outputs hq.runnable hq.noSignal (fun u hu => hq.noLoop u u hu rfl)
    (by rw [ho.inputs]; exact hd) h
  refine ⟨h1, ?_⟩
  rw [ho.inputs] at h2
  obtain ⟨r₀, k, hk, -, e⟩ := ho.scalar hp data hd hsb r
  obtain ⟨c, hc, e'⟩ := hsb r₀ fun _ => false
  have hP : branchProb p.inputs (data.toState p.inputs) p.seq r₀ = Complex.normSq k * branchProb p.inputs (data.toState p.inputs) q.seq r := by
    have := branchProb_outputs hq r (data.toState p.inputs)
    rw [ho.inputs] at this
    rw [branchProb_outputs hp, e, stateNormSq_smul, ← ho.outputs, stateNormSq_ren, this]
  have hmap : absDens p.outputs st.dm.rho = fun b b' => absDens q.outputs st.dm.rho (b ∘ σ) (b' ∘ σ) := by
    rw [← ho.outputs]; funext b b'; simp only [absDens, enc_map]
  have hk0 : (Complex.normSq k : ℂ) ≠ 0 := by
    rw [Ne, Complex.ofReal_eq_zero, Complex.normSq_eq_zero]; exact hk
  rw [hmap, h2, hsb.prob (fun _ => false) r₀, ← ketBra_unit hc (semCmds (fun _ => false) p.seq (data.toState p.inputs)), ← e', hP, e, ketBra_scalar]
  funext b b'
  simp only [Pi.smul_apply, smul_eq_mul, ketBra, ren]
  push_cast
  rw [mul_inv]
  field_simp

/-- **C79** A deterministic pattern and what a script makes of it give the same density matrix, in all runs. -/
theorem C79_density (p : Pattern) (hp : Tidy p) (hdet : Deterministic p) (l : List OptCall) (hl : OptCall.AllOk p l) :
    ∃ q w, OptCall.runAll p l = .ok (q, w) ∧
      ∀ (env env' : DMEnv) (data : InputData) (_ : data.Ok p.inputs.length) (st st' : DMState), simulateDM env p none (.pure data) = .ok st →
        simulateDM env' q none (.pure data) = .ok st' → SameDensity st'.dm st.dm := by
  obtain ⟨q, w, σ, h1, hq, ho⟩ := C79_script p hp l hl
  refine ⟨q, w, h1, fun env env' data hd st st' hst hst' => ?_⟩
  have hsb := Deterministic.sameBranches hp hdet (toState_on p.inputs data)
  obtain ⟨a1, a2⟩ := (Optimized.refl p hp).runDM_state hp hp hd hsb hst
  obtain ⟨b1, b2⟩ := ho.runDM_state hp hq hd hsb hst'
  exact sameDensity_of_abs hp.outputs.outputs_nodup b1 (by rw [← ho.outputs, List.length_map]) a1 (b2.trans a2.symm)

theorem SameDensity.trans {a b c : DensityMatrix} (h : SameDensity a b) (h' : SameDensity b c) : SameDensity a c :=
  ⟨h.1.trans h'.1, h.2.1.trans h'.2.1, fun i hi j hj =>
    (h.2.2 i (by rw [h'.1]; exact hi) j (by rw [h'.2.1]; exact hj)).trans (h'.2.2 i hi j hj)⟩

theorem Realizes.sameBranches {c : Circuit} {p : Pattern} {σ : ℕ → ℕ} {k : ℕ} (h : Realizes c p σ k) (hm : circMeasured c.instrs = []) {ψ : QState}
    (hψ : OnNodes (List.range c.width) ψ) : SameBranches p ψ := by
  intro r r'
  obtain ⟨d, hd1, e⟩ := h.state r hψ (fun _ => false) (by rw [hm]; simp)
  obtain ⟨d', hd2, e'⟩ := h.state r' hψ (fun _ => false) (by rw [hm]; simp)
  have hd0 : d' ≠ 0 := by rintro rfl; simp at hd2
  refine ⟨d * d'⁻¹, by rw [norm_mul, norm_inv, hd1, hd2]; norm_num, ?_⟩
  rw [e, e', smul_smul]
  congr 1
  field_simp

/-- **C79** The workflow of the README on the density-matrix backend: every run of the pattern at the end of the script ends in the density matrix
that `Circuit.simulate` gives, and when the branch selector only chooses possible outcomes the runs do not fail (even if there were warnings). -/
theorem C79_circuit_density (c : Circuit) (hc : c.Built) (hp : ∀ i ∈ c.instrs, i.Proper ∧ ¬ i.isId) (hm : circMeasured c.instrs = [])
    (ord : SetOrd) (hord : ord.Valid)
    (eord : List (ℕ × ℕ) → List (ℕ × ℕ)) (he : EdgeOrd.Valid eord) (nbr : Finset (Sym2 ℕ) → ℕ → List ℕ) (hnbr : NbrOrd.Valid nbr) :
    ∃ res, c.transpile ord eord nbr = .ok res ∧ ∀ l, OptCall.AllOk res.pattern l → ∃ q w, OptCall.runAll res.pattern l = .ok (q, w) ∧
      ∀ (env env' : DMEnv) (data : InputData) (_ : data.Ok c.width), ∃ dm, c.simulateDM env' (.pure data) = .ok (dm, []) ∧
        (∀ st, simulateDM env q none (.pure data) = .ok st → SameDensity st.dm dm) ∧
        ((∀ results n p0, 0 ≤ p0 → p0 ≤ 1 → ∃ o, env.sel results n p0 = .ok o ∧ 0 < (if o then 1 - p0 else p0)) →
          ∃ st, simulateDM env q none (.pure data) = .ok st) := by
  obtain ⟨res, hres, hcl0, -⟩ := C59_unitary_total_partial c hc hp hm ord hord eord he nbr hnbr
  refine ⟨res, hres, fun l hl => ?_⟩
  have ht := C79_transpiled_tidy c hc hp ord hord eord he nbr hnbr res (.inl hres)
  obtain ⟨σ', k, hr, -, -⟩ := transpile_realizes hc hp hord he hnbr hres
  obtain ⟨q, w, σ, h1, hq, ho⟩ := C79_script res.pattern ht l hl
  refine ⟨q, w, h1, ?_⟩
  intro env env' data hd
  have hd' : data.Ok res.pattern.inputs.length := by rw [hr.inputs]; simpa using hd
  have hdd : (DMData.pure data).Ok (List.range c.width) := by
    change data.Ok (List.range c.width).length; simpa using hd
  have hsb := hr.sameBranches hm (toState_on (List.range c.width) data)
  rw [← hr.inputs] at hsb
  have hE : ∀ u, Command.E u u ∉ res.pattern.seq := fun u hu => hr.noLoop u u hu rfl
  rcases C58_simulateDM c hc (fun i hi => (hp i hi).1) env' (.pure data) hdd with ⟨dm, ms, b1, b2, -⟩ | ⟨e, -, pre, t, a, post, ms, b1, -⟩
  swap
  · exfalso
    rw [b1, circMeasured_append] at hm
    simp [circMeasured] at hm
  have hms := b2.1
  rw [hm] at hms
  obtain rfl := List.length_eq_zero_iff.1 hms
  refine ⟨dm, b1, fun st hst => ?_, fun hsel => ?_⟩
  swap
  · obtain ⟨-, st, -, -, g1, -⟩ := C57_no_failure env q hq.outputs hq.runnable hq.noSignal (fun u hu => hq.noLoop u u hu rfl) none (by simp)
      (.pure data) (by change data.Ok q.inputs.length; rw [ho.inputs]; exact hd') hsel
    exact ⟨st, g1⟩
  obtain ⟨-, st', -, -, g1, -⟩ := C57_no_failure { env with sel := fun _ _ p0 => .ok (decide (p0 < 1 / 2)) } res.pattern hr.ok hr.run hr.noS hE none
    (by simp) (.pure data) hd' (by
      intro _ _ p0 h0 h1
      refine ⟨_, rfl, ?_⟩
      by_cases h : p0 < 1 / 2
      · simp only [h, decide_true, if_true]; linarith
      · simp only [h, decide_false, Bool.false_eq_true, if_false]; linarith)
  have hact : Finset.range c.width \ c.active = ∅ := by
    rw [hc.listOk.2]
    ext q
    simp only [Finset.mem_sdiff, Finset.mem_range, Finset.notMem_empty, iff_false, not_and, not_not]
    intro hq
    rw [mem_afterList]
    exact ⟨by simpa using hq, by rw [hm]; simp⟩
  have k1 := C59_density_partial c hc hp ord hord eord he nbr hnbr res hres _ env' (.pure data) hdd st' dm [] g1 b1
    (by rw [hcl0, hact]; simp)
  obtain ⟨a1, a2⟩ := (Optimized.refl res.pattern ht).runDM_state ht ht hd' hsb g1
  obtain ⟨c1, c2⟩ := ho.runDM_state ht hq hd' hsb hst
  exact (sameDensity_of_abs ht.outputs.outputs_nodup c1 (by rw [← ho.outputs, List.length_map]) a1 (c2.trans a2.symm)).trans k1

/-! ### Examples -/

/-- The workflow of the README on the density-matrix backend. -/
example : ∃ choose res q w dm st, exUnitary.transpile exOrd id sortedNbr = .ok res ∧ OptCall.runAll res.pattern (readmeScript choose) = .ok (q, w) ∧
    exUnitary.simulateDM exampleDMEnv (.pure (.state PlanarState.plus)) = .ok (dm, []) ∧
    simulateDM exampleDMEnv q none (.pure (.state PlanarState.plus)) = .ok st ∧ SameDensity st.dm dm := by
  obtain ⟨choose, hch⟩ := exists_choose
  obtain ⟨res, h1, h2⟩ := C79_circuit_density exUnitary exUnitary_built exUnitary_proper rfl exOrd exOrd_valid id idEdgeOrd_valid sortedNbr
    sortedNbr_valid
  obtain ⟨q, w, h3, h4⟩ := h2 _ (readmeScript_ok hch _)
  obtain ⟨dm, h5, h6, h7⟩ := h4 exampleDMEnv exampleDMEnv (.state PlanarState.plus) trivial
  obtain ⟨st, h8⟩ := h7 (by
    intro _ _ p0 h0 h1
    refine ⟨_, rfl, ?_⟩
    by_cases h : p0 < 1 / 2
    · simp only [h, decide_true, if_true]; linarith
    · simp only [h, decide_false, Bool.false_eq_true, if_false]; linarith)
  exact ⟨choose, res, q, w, dm, st, h1, h3, h5, h8, h6 st h8⟩

theorem stdExample_tidy : Tidy stdExample := by
  have hseq : stdExample.seq = [Command.N 1 .plus, .E 0 1, .M 0 (.bloch ⟨1/4, .XY⟩) ∅ ∅, .X 1 {0},
      .N 2 .plus, .E 1 2, .M 1 (.bloch ⟨1/8, .XY⟩) ∅ ∅, .X 2 {1}] := rfl
  refine ⟨stdExample_outputsOk, (checkRunnability_iff _).2 (fromPattern_ok stdExampleSP_eq).1, ?_, stdExample_noSelfLoop, stdExample_plus,
    cliffordsLast_of_none ?_⟩
  · rw [hseq]; simp
  · rw [hseq]; simp

theorem stdExample_deterministic : Deterministic stdExample := by
  obtain ⟨f, hf⟩ : ∃ f, stdExample.toPauliFlow exEnum exOrd = .ok f := by
    unfold Pattern.toPauliFlow Pattern.toXZCorrections StdPattern.toXZCorrections
    simp only [stdExampleSP_eq, stdExampleSP_og, bind, Except.bind]
    exact ⟨_, rfl⟩
  obtain ⟨xz, -, -, ⟨f', -, -, hfol⟩ | ⟨herr, -⟩⟩ := C61_to_pauliflow_partial stdExample stdExample_outputsOk stdExample_noSelfLoop stdExample_plus
    stdExampleSP stdExampleSP_eq exEnum exEnum_valid exOrd exOrd_valid stdExample_inputs
  · exact hfol.1
  · rw [hf] at herr; cases herr

/-- A deterministic pattern on an input of its own, with the script of the README. -/
example : ∃ choose q w, OptCall.runAll stdExample (readmeScript choose) = .ok (q, w) ∧
    ∀ (env env' : DMEnv) (st st' : DMState), simulateDM env stdExample none (.pure (.state ⟨.XZ, 1 / 3⟩)) = .ok st →
      simulateDM env' q none (.pure (.state ⟨.XZ, 1 / 3⟩)) = .ok st' → SameDensity st'.dm st.dm := by
  obtain ⟨choose, hch⟩ := exists_choose
  obtain ⟨q, w, h1, h2⟩ := C79_density stdExample stdExample_tidy stdExample_deterministic _ (readmeScript_ok hch _)
  exact ⟨choose, q, w, h1, fun env env' st st' => h2 env env' (.state ⟨.XZ, 1 / 3⟩) trivial st st'⟩

example : ∃ choose q w, OptCall.runAll stdExample (readmeScript choose) = .ok (q, w) ∧
    ∀ st st', simulate exampleEnv' stdExample (.state ⟨.XZ, 1 / 3⟩) false (fun _ _ => 7) = .ok st →
      simulate exampleEnv' q (.state ⟨.XZ, 1 / 3⟩) false (fun _ _ => 7) = .ok st' → st'.sv.fidelity st.sv = .ok 1 := by
  obtain ⟨choose, hch⟩ := exists_choose
  obtain ⟨q, w, h1, h2⟩ := C79_deterministic stdExample stdExample_tidy stdExample_deterministic _ (readmeScript_ok hch _)
  refine ⟨choose, q, w, h1, fun st st' h h' => ?_⟩
  exact ((h2 exampleEnv' exampleEnv' (exampleEnv_okAll _) (exampleEnv_okAll _) (.state ⟨.XZ, 1 / 3⟩) false false trivial (by simp) (by simp) _ _).1 st st' h h').2

/-- There is a run of this pattern on the density-matrix backend, and all runs give this matrix. -/
example : ∃ st, simulateDM exampleDMEnv stdExample none (.pure (.state ⟨.XZ, 1 / 3⟩)) = .ok st ∧
    ∀ env' st', simulateDM env' stdExample none (.pure (.state ⟨.XZ, 1 / 3⟩)) = .ok st' → SameDensity st.dm st'.dm := by
  have ht := stdExample_tidy
  obtain ⟨-, st, -, -, h, -⟩ := C57_no_failure exampleDMEnv stdExample ht.outputs ht.runnable ht.noSignal (fun u hu => ht.noLoop u u hu rfl) none
    (by simp) (.pure (.state ⟨.XZ, 1 / 3⟩)) trivial (by
      intro _ _ p0 h0 h1
      refine ⟨_, rfl, ?_⟩
      by_cases h : p0 < 1 / 2
      · simp only [h, decide_true, if_true]; linarith
      · simp only [h, decide_false, Bool.false_eq_true, if_false]; linarith)
  exact ⟨st, h, (C57_deterministic stdExample ht.outputs ht.runnable ht.noSignal (fun u hu => ht.noLoop u u hu rfl) stdExample_deterministic
    (.state ⟨.XZ, 1 / 3⟩) trivial exampleDMEnv st h).1⟩

end Graphix
