import Verif.Props.TensorNet
import Verif.Props.DetSim

/-!
# Property C63: the tensor-network backend against the state-vector backend, errors, and disagreements
-/

namespace Graphix

open Function StdPattern TensorNet Pattern
open scoped symmDiff

/-- The hypotheses of `C63_run_partial`. -/
structure TnReady (env : TnEnv) (p : Pattern) (mode : GraphPrepMode) : Prop where
  env_ok : env.Ok
  outputs : p.OutputsOk
  loop : NoSelfLoop p.seq
  signals : ∀ n d, Command.S n d ∉ p.seq
  plus : ∀ n st, Command.N n st ∈ p.seq → st = PlanarState.plus
  std : ∃ sp, StdPattern.fromPattern p = .ok sp
  neighbour : ∀ n ∈ measuredIn p.seq, ∃ w, Odd (edgeCount p.seq n w)
  sel : ∀ res n, ∃ o, env.sel res n (1 / 2) = .ok o
  selAgain : ∀ res n, ∃ o, env.selAgain res n (1 / 2) = .ok o
  mode_ok : mode.Accepts p

theorem TnReady.run {env : TnEnv} {p : Pattern} {mode : GraphPrepMode} (h : TnReady env p mode) :
    ∃ st, tnSimulate env p mode (some (.state PlanarState.plus)) = .ok st ∧
      (∀ n, (∃ o, st.results.get? n = some o) ↔ n ∈ measuredIn p.seq) ∧ TnChosen env p.seq st.results ∧
      ∀ r, Agrees st.results r → ∃ c : ℂ, ‖c‖ = 1 ∧
        ∀ ψ, ψ = semCmds r p.seq (InputData.toState p.inputs (.state PlanarState.plus)) →
          (∀ b, st.net.rawCoefficient (enc p.outputs b) = .ok (c * (Real.sqrt 2 : ℂ) ^ (measuredIn p.seq).length * ψ b)) ∧
          st.net.norm = Real.sqrt 2 ^ (measuredIn p.seq).length * Real.sqrt (stateNormSq p.outputs ψ) ∧
          ∀ psi, absState p.outputs psi = ψ →
            st.net.toStatevector = .ok (if stateNormSq p.outputs ψ = 0 then none else
              some ((List.range (2 ^ p.outputs.length)).map fun i => c * psi i / (Real.sqrt (stateNormSq p.outputs ψ) : ℂ))) := by
  obtain ⟨sp, hsp⟩ := h.std
  exact C63_run_partial env h.env_ok p h.outputs h.loop h.signals h.plus sp hsp h.neighbour h.sel h.selAgain mode h.mode_ok

/-- `to_statevector()` of a run, when the branch of its outcomes is proportional to a normalised vector. -/
theorem tn_statevector_of_prop {env : TnEnv} {p : Pattern} {mode : GraphPrepMode} (h : TnReady env p mode) {st : TnState}
    (hst : tnSimulate env p mode (some (.state PlanarState.plus)) = .ok st) {r : ℕ → Bool} (hr : Agrees st.results r) {psi : Buf} {c₀ : ℂ}
    (hn : normSq p.outputs.length psi = 1)
    (hpsi : absState p.outputs psi = c₀ • semCmds r p.seq (InputData.toState p.inputs (.state PlanarState.plus))) :
    ∃ κ : ℂ, ‖κ‖ = 1 ∧ st.net.toStatevector = .ok (some ((List.range (2 ^ p.outputs.length)).map fun i => κ * psi i)) := by
  obtain ⟨st', h1, -, -, h4⟩ := h.run
  obtain rfl := Except.ok.inj (hst.symm.trans h1)
  obtain ⟨c, hc, h5⟩ := h4 r hr
  obtain ⟨-, -, h6⟩ := h5 _ rfl
  set ψ := semCmds r p.seq (InputData.toState p.inputs (.state PlanarState.plus)) with hψ
  have hc0 : c₀ ≠ 0 := by
    intro h0
    rw [h0, zero_smul] at hpsi
    rw [← stateNormSq_abs _ h.outputs.outputs_nodup, hpsi] at hn
    simp [stateNormSq] at hn
  have hψ' : absState p.outputs (fun i => c₀⁻¹ * psi i) = ψ := by
    have e : absState p.outputs (fun i => c₀⁻¹ * psi i) = c₀⁻¹ • absState p.outputs psi := rfl
    rw [e, hpsi, smul_smul, inv_mul_cancel₀ hc0, one_smul]
  have hN : stateNormSq p.outputs ψ = Complex.normSq c₀⁻¹ := by
    rw [← hψ', show absState p.outputs (fun i => c₀⁻¹ * psi i) = c₀⁻¹ • absState p.outputs psi from rfl, stateNormSq_smul,
      stateNormSq_abs _ h.outputs.outputs_nodup, hn, mul_one]
  have hN0 : stateNormSq p.outputs ψ ≠ 0 := by rw [hN]; simp [hc0]
  have hsq : Real.sqrt (stateNormSq p.outputs ψ) = ‖c₀‖⁻¹ := by
    rw [hN, Complex.normSq_eq_norm_sq, Real.sqrt_sq (norm_nonneg _), norm_inv]
  refine ⟨c * (c₀⁻¹ * ‖c₀‖), ?_, ?_⟩
  · rw [norm_mul, norm_mul, hc, norm_inv, Complex.norm_real, norm_norm, one_mul, inv_mul_cancel₀ (norm_ne_zero_iff.2 hc0)]
  · rw [h6 _ hψ', if_neg hN0, hsq]
    congr 2
    refine List.map_congr_left fun i _ => ?_
    push_cast
    rw [div_inv_eq_mul]
    ring

/-- **C63** The tensor-network backend and the state-vector backend agree: when a run of each of them, on the input `|+⟩`, got the same outcomes,
`to_statevector()` of the tensor network is not NaN and is the state vector, up to a global phase. -/
theorem C63_agrees_statevector_partial (env : TnEnv) (p : Pattern) (mode : GraphPrepMode) (h : TnReady env p mode) (env' : SimEnv) (henv' : env'.Ok p.seq)
    (plusObj : Bool) (junk : ℕ → Buf) (st : TnState) (st' : SimState) (hst : tnSimulate env p mode (some (.state PlanarState.plus)) = .ok st)
    (hst' : simulate env' p (.state PlanarState.plus) plusObj junk = .ok st')
    (hres : ∀ n ∈ measuredIn p.seq, st.results.get? n = st'.results.get? n) :
    ∃ κ : ℂ, ‖κ‖ = 1 ∧ st.net.toStatevector = .ok (some ((List.range (2 ^ st'.sv.nqubit)).map fun i => κ * st'.sv.psi i)) := by
  obtain ⟨sp, hsp⟩ := h.std
  have hrun := (checkRunnability_iff p).2 (fromPattern_ok hsp).1
  rcases C10_run env' p henv' h.outputs hrun h.signals (.state PlanarState.plus) plusObj trivial (fun _ => rfl) junk with
    ⟨st1, a1, -, -, a2, a3, a4⟩ | ⟨e, a1, -⟩
  swap
  · rw [hst'] at a1; cases a1
  obtain rfl := Except.ok.inj (hst'.symm.trans a1)
  obtain ⟨st2, b1, b2, -⟩ := h.run
  obtain rfl := Except.ok.inj (hst.symm.trans b1)
  obtain ⟨r, hr⟩ := exists_agrees st'.results
  have hr' : Agrees st.results r := by
    intro n o hn
    exact hr n o (by rw [← hres n ((b2 n).1 ⟨o, hn⟩)]; exact hn)
  obtain ⟨-, c1, c, c2⟩ := a4 r hr
  rw [stateNormSq_abs _ h.outputs.outputs_nodup] at c1
  rw [a2]
  exact tn_statevector_of_prop h hst hr' c1 c2

/-- **C63** For a deterministic pattern, the two backends agree whatever the outcomes are: all the runs succeed, and `to_statevector()` of
the tensor network is the state vector, up to a global phase. -/
theorem C63_deterministic_partial (env : TnEnv) (p : Pattern) (mode : GraphPrepMode) (h : TnReady env p mode) (hdet : Deterministic p)
    (env' : SimEnv) (henv' : env'.Ok p.seq) (plusObj : Bool) (junk : ℕ → Buf) (hsel' : ∀ results n, ∃ o, env'.sel results n (1 / 2) = .ok o) :
    ∃ st st', tnSimulate env p mode (some (.state PlanarState.plus)) = .ok st ∧ simulate env' p (.state PlanarState.plus) plusObj junk = .ok st' ∧
      ∃ κ : ℂ, ‖κ‖ = 1 ∧ st.net.toStatevector = .ok (some ((List.range (2 ^ st'.sv.nqubit)).map fun i => κ * st'.sv.psi i)) := by
  obtain ⟨sp, hsp⟩ := h.std
  have hR := (fromPattern_ok hsp).1
  have hrun := (checkRunnability_iff p).2 hR
  obtain ⟨st', -, h1', -⟩ := C10_deterministic p h.outputs hrun h.signals hdet env' env' henv' henv' (.state PlanarState.plus) plusObj plusObj
    trivial (fun _ => rfl) (fun _ => rfl) junk junk hsel' hsel'
  obtain ⟨st, h1, -⟩ := h.run
  refine ⟨st, st', h1, h1', ?_⟩
  rcases C10_run env' p henv' h.outputs hrun h.signals (.state PlanarState.plus) plusObj trivial (fun _ => rfl) junk with
    ⟨st1, a1, -, -, a2, a3, a4⟩ | ⟨e, a1, -⟩
  swap
  · rw [h1'] at a1; cases a1
  obtain rfl := Except.ok.inj (h1'.symm.trans a1)
  have habs : Absent p.preparedNodes (InputData.toState p.inputs (.state PlanarState.plus)) := by
    refine (toState_on _ _).absent fun n hn hc => ?_
    have hnd := hR.introduced_nodup h.outputs.inputs_nodup
    unfold introduced at hnd
    exact (List.nodup_append.1 hnd).2.2 n hn n (List.mem_toFinset.1 hc) rfl
  obtain ⟨r, hr⟩ := exists_agrees st.results
  obtain ⟨r', hr'⟩ := exists_agrees st'.results
  obtain ⟨⟨d, -, e⟩, -⟩ := hdet r' r
  obtain ⟨-, c1, c, c2⟩ := a4 r' hr'
  rw [stateNormSq_abs _ h.outputs.outputs_nodup] at c1
  rw [e _ habs, smul_smul] at c2
  rw [a2]
  exact tn_statevector_of_prop h h1 hr c1 c2

theorem TnReady.exists_psi {env : TnEnv} {p : Pattern} {mode : GraphPrepMode} (h : TnReady env p mode) {st : TnState}
    (hst : tnSimulate env p mode (some (.state PlanarState.plus)) = .ok st) {r : ℕ → Bool} (hr : Agrees st.results r) :
    ∃ psi, absState p.outputs psi = semCmds r p.seq (InputData.toState p.inputs (.state PlanarState.plus)) := by
  obtain ⟨sp, hsp⟩ := h.std
  obtain ⟨st', iso, par, h1, inv⟩ := tn_run env h.env_ok p h.outputs h.loop h.signals h.plus sp hsp h.neighbour h.sel h.selAgain mode h.mode_ok
  obtain rfl := Except.ok.inj (hst.symm.trans h1)
  obtain ⟨J, c, hc, hR⟩ := inv.rep r hr
  obtain ⟨psi, hpsi⟩ := hR.exists_psi h.outputs.outputs_nodup (fun n => by rw [mem_live_finset, h.outputs.outputs])
  have hk : c * (Real.sqrt 2 : ℂ) ^ (measuredIn p.seq).length ≠ 0 := mul_ne_zero (by rintro rfl; simp at hc) (pow_ne_zero _ (by simp))
  refine ⟨fun i => (c * (Real.sqrt 2 : ℂ) ^ (measuredIn p.seq).length)⁻¹ * psi i, ?_⟩
  rw [show absState p.outputs (fun i => (c * (Real.sqrt 2 : ℂ) ^ (measuredIn p.seq).length)⁻¹ * psi i) =
    (c * (Real.sqrt 2 : ℂ) ^ (measuredIn p.seq).length)⁻¹ • absState p.outputs psi from rfl, hpsi, smul_smul, inv_mul_cancel₀ hk, one_smul]

/-- Two runs with the same selector get the same outcomes, when the selector only looks up the outcomes. -/
theorem TnChosen.unique {env env' : TnEnv} {seq : List Command} {results results' : PyDict ℕ Bool}
    (hsel : ∀ n res res', (∀ k, res.get? k = res'.get? k) → env.sel res n (1 / 2) = env'.sel res' n (1 / 2))
    (h : TnChosen env seq results) (h' : TnChosen env' seq results') : ∀ pre post, seq = pre ++ post → ∀ k ∈ measuredIn pre, results.get? k = results'.get? k := by
  intro pre
  induction pre using List.reverseRecOn with
  | nil => intro post _ k hk; simp [measuredIn] at hk
  | append_singleton pre c ih =>
    intro post hseq k hk
    have hpre : seq = pre ++ (c :: post) := by rw [hseq]; simp
    have ih' := ih _ hpre
    rw [measuredIn_append, List.mem_append] at hk
    rcases hk with hk | hk
    · exact ih' k hk
    · cases c with
      | M n m s t =>
        simp only [measuredIn, List.filterMap_cons, Command.measured?, List.filterMap_nil, List.mem_singleton] at hk
        subst hk
        obtain ⟨res, o, a1, a2, a3, a4⟩ := h pre k m s t post hpre
        obtain ⟨res', o', b1, b2, b3, b4⟩ := h' pre k m s t post hpre
        have hsame : ∀ j, res.get? j = res'.get? j := by
          intro j
          by_cases hj : j ∈ measuredIn pre
          · obtain ⟨x, hx⟩ := (a1 j).2 hj
            obtain ⟨y, hy⟩ := (b1 j).2 hj
            rw [hx, hy, ← a2 j x hx, ← b2 j y hy]
            exact ih' j hj
          · have e1 : res.get? j = none := by
              cases hx : res.get? j with
              | none => rfl
              | some x => exact absurd ((a1 j).1 ⟨x, hx⟩) hj
            have e2 : res'.get? j = none := by
              cases hx : res'.get? j with
              | none => rfl
              | some x => exact absurd ((b1 j).1 ⟨x, hx⟩) hj
            rw [e1, e2]
        rw [hsel k res res' hsame, b3] at a3
        obtain rfl := Except.ok.inj a3
        rw [a4, b4]
      | _ => simp [measuredIn, Command.measured?] at hk

/-- **C63** The ways of preparing the graph state agree: two runs of a pattern with the same selector (that looks up the outcomes), with
any two modes, any two factorisations of CZ and orders of the graph, get the same outcomes, and networks with the same amplitudes up to a global
phase; their `to_statevector()` are both NaN, or equal up to this phase. -/
theorem C63_modes_agree_partial (env env' : TnEnv) (p : Pattern) (mode mode' : GraphPrepMode) (h : TnReady env p mode) (h' : TnReady env' p mode')
    (hsel : ∀ n res res', (∀ k, res.get? k = res'.get? k) → env.sel res n (1 / 2) = env'.sel res' n (1 / 2)) :
    ∃ st st', tnSimulate env p mode (some (.state PlanarState.plus)) = .ok st ∧ tnSimulate env' p mode' (some (.state PlanarState.plus)) = .ok st' ∧
      (∀ k, st.results.get? k = st'.results.get? k) ∧ st.net.norm = st'.net.norm ∧
      ∃ κ : ℂ, ‖κ‖ = 1 ∧ (∀ b, ∃ z, st.net.rawCoefficient (enc p.outputs b) = .ok z ∧ st'.net.rawCoefficient (enc p.outputs b) = .ok (κ * z)) ∧
        ((st.net.toStatevector = .ok none ∧ st'.net.toStatevector = .ok none) ∨
          ∃ l, st.net.toStatevector = .ok (some l) ∧ st'.net.toStatevector = .ok (some (l.map fun z => κ * z))) := by
  obtain ⟨st, a1, a2, a3, a4⟩ := h.run
  obtain ⟨st', b1, b2, b3, b4⟩ := h'.run
  have hres : ∀ k, st.results.get? k = st'.results.get? k := by
    intro k
    by_cases hk : k ∈ measuredIn p.seq
    · exact a3.unique hsel b3 p.seq [] (by simp) k hk
    · cases hx : st.results.get? k with
      | some x => exact absurd ((a2 k).1 ⟨x, hx⟩) hk
      | none =>
        cases hy : st'.results.get? k with
        | none => rfl
        | some x => exact absurd ((b2 k).1 ⟨x, hy⟩) hk
  obtain ⟨r, hr⟩ := exists_agrees st.results
  have hr' : Agrees st'.results r := fun n o hn => hr n o (by rw [hres]; exact hn)
  obtain ⟨c, hc, h5⟩ := a4 r hr
  obtain ⟨c', hc', h5'⟩ := b4 r hr'
  obtain ⟨d1, d2, d3⟩ := h5 _ rfl
  obtain ⟨e1, e2, e3⟩ := h5' _ rfl
  have hc0 : c ≠ 0 := by rintro rfl; simp at hc
  refine ⟨st, st', a1, b1, hres, by rw [d2, e2], c' * c⁻¹, by rw [norm_mul, norm_inv, hc, hc']; simp, fun b => ⟨_, d1 b, ?_⟩, ?_⟩
  · rw [e1 b]
    congr 1
    field_simp
  · obtain ⟨psi, hpsi⟩ : ∃ psi, absState p.outputs psi = semCmds r p.seq (InputData.toState p.inputs (.state PlanarState.plus)) :=
      h.exists_psi a1 hr
    rw [d3 psi hpsi, e3 psi hpsi]
    split
    · exact Or.inl ⟨rfl, rfl⟩
    · refine Or.inr ⟨_, rfl, ?_⟩
      congr 2
      rw [List.map_map]
      refine List.map_congr_left fun i _ => ?_
      simp only [Function.comp]
      field_simp

end Graphix
