import Verif.Props.CircSim
import Verif.Props.Transpile

/-!
# Property C58: `Circuit.simulate` on the density-matrix backend; agreement of the backends
-/

namespace Graphix

/-- State of the simulation of a circuit after the instructions `pre`, on the density-matrix backend. -/
structure CircInvDM (env : DMEnv) (w : ℕ) (ρ₀ : QDens) (pre : List Instr) (cs : DMState × List Bool) : Prop where
  reg : DRegInv (circLive w pre) cs.1
  results : cs.1.results = circRecord pre cs.2
  chosen : CircChosen env.sel w ρ₀ pre cs.2
  sem : ∃ c : ℝ, 0 < c ∧ (circMeasured pre = [] → c = 1) ∧ absDens (circLive w pre) cs.1.dm.rho = (c : ℂ) • circDens ρ₀ pre cs.2

theorem CircInvDM.gate {env : DMEnv} {w : ℕ} {ρ₀ : QDens} (hρ : IsMixture ρ₀) {pre : List Instr} {cs : DMState × List Bool}
    (inv : CircInvDM env w ρ₀ pre cs) {i : Instr} (hg : i.isGate) (hp : i.Proper)
    (hok : Circuit.instrOk (Circuit.afterList (Finset.range w) pre) i = true) :
    ∃ cs', circStepDM env cs i = .ok cs' ∧ CircInvDM env w ρ₀ (pre ++ [i]) cs' := by
  obtain ⟨st, ms⟩ := cs
  obtain ⟨dm', h1, h2, h3⟩ := inv.reg.gate env ms hg hp hok (fun n hn => by
    rw [mem_afterList, Finset.mem_range] at hn; exact mem_circLive.2 hn)
  refine ⟨_, h1, ?_⟩
  obtain ⟨c, hc, hc1, hsem⟩ := inv.sem
  refine ⟨by rw [circLive_gate w pre hg]; exact h2, by rw [circRecord_gate _ _ hg]; exact inv.results, inv.chosen.gate hg, c, hc, ?_, ?_⟩
  · rw [circMeasured_append, circMeasured_gate hg, List.append_nil]; exact hc1
  · rw [circLive_gate w pre hg, circDens_gate hρ _ _ hg]
    show absDens _ dm'.rho = _
    rw [h3, hsem, conjBy_smul i.gate_lin.smul]

theorem CircInvDM.M {env : DMEnv} {w : ℕ} {ρ₀ : QDens} (hρ : IsMixture ρ₀) {pre : List Instr} {cs : DMState × List Bool}
    (inv : CircInvDM env w ρ₀ pre cs) {t : ℕ} {a : Axis}
    (hok : Circuit.instrOk (Circuit.afterList (Finset.range w) pre) (.M t a) = true) :
    (∃ cs', circStepDM env cs (.M t a) = .ok cs' ∧ CircInvDM env w ρ₀ (pre ++ [.M t a]) cs') ∨
    ∃ e, circStepDM env cs (.M t a) = .error e ∧
      (CircAnswers env.sel w ρ₀ pre cs.2 t a (.error e) ∨
        ∃ o, CircAnswers env.sel w ρ₀ pre cs.2 t a (.ok o) ∧ e = .zeroDivisionError ∧
        ‖circProb w ρ₀ (pre ++ [.M t a]) (cs.2 ++ [o])‖ ≤ 0 * ‖circProb w ρ₀ pre cs.2‖) := by
  obtain ⟨st, ms⟩ := cs
  have ht : t ∈ circLive w pre := by
    simp only [Circuit.instrOk, decide_eq_true_eq] at hok
    rw [mem_afterList, Finset.mem_range] at hok; exact mem_circLive.2 hok
  obtain ⟨c, hc, hc1, hsem⟩ := inv.sem
  obtain ⟨P, hP0, hsum, hPs, h⟩ := inv.reg.measure env ht (.pauli ⟨a, .plus⟩)
  have hlen : ms.length = (circMeasured pre).length := inv.chosen.1
  have hone : (c : ℂ) * circProb w ρ₀ pre ms = 1 := by
    unfold circProb
    rw [← traceOn_smul, ← hsem]; exact inv.reg.dens.trace
  have hPo : ∀ o, (c : ℂ) * circProb w ρ₀ (pre ++ [.M t a]) (ms ++ [o]) = P o := by
    intro o
    unfold circProb
    rw [← hPs o, circLive_M, circDens_M hρ _ _ hlen, ← traceOn_smul, hsem, conjBy_smul (Lin.projOut _ _).smul]
  have hprob : ∀ o, circProb w ρ₀ (pre ++ [.M t a]) (ms ++ [o]) = (P o : ℂ) * circProb w ρ₀ pre ms := by
    intro o
    rw [← hPo o]
    linear_combination -(circProb w ρ₀ (pre ++ [.M t a]) (ms ++ [o])) * hone
  have hne : circProb w ρ₀ pre ms ≠ 0 := by
    intro h0; rw [h0] at hone; simp at hone
  have hans : ∀ x, env.sel st.results t (P false) = x → CircAnswers env.sel w ρ₀ pre ms t a x := by
    intro x hx
    have hr : st.results = circRecord pre ms := inv.results
    refine ⟨P false, hP0 false, by have := hP0 true; linarith, hne, fun o => ?_, by rw [← hr]; exact hx⟩
    rw [hprob]
    congr 2
    cases o
    · simp
    · simp; linarith
  rcases h with ⟨e, h1, h2⟩ | ⟨o, h1, ⟨h2, h3⟩ | ⟨dm', idx', h2, h3, hpos, h4⟩⟩
  · right
    exact ⟨e, by simp only [circStepDM, h2, bind, Except.bind], Or.inl (hans _ h1)⟩
  · right
    refine ⟨_, by simp only [circStepDM, h2, bind, Except.bind], Or.inr ⟨o, hans _ h1, rfl, ?_⟩⟩
    dsimp only
    rw [hprob, h3]; simp
  · left
    refine ⟨(⟨dm', idx', st.results.set t o, st.draws⟩, ms ++ [o]), by simp only [circStepDM, h2, bind, Except.bind]; rfl, ?_⟩
    refine ⟨?_, ?_, inv.chosen.M (hans _ h1), (P o)⁻¹ * c, mul_pos (inv_pos.2 hpos) hc, ?_, ?_⟩
    · rw [circLive_M]
      exact ⟨h3.idx, h3.list, h3.shape, h3.dens⟩
    · rw [circRecord_M _ _ hlen]
      show st.results.set t o = _
      rw [show st.results = circRecord pre ms from inv.results]
    · rw [circMeasured_append, circMeasured_M]
      intro hcon; simp at hcon
    · rw [circLive_M, circDens_M hρ _ _ hlen]
      show absDens _ dm'.rho = _
      rw [h4, hsem, conjBy_smul (Lin.projOut _ _).smul, smul_smul]
      push_cast; rfl

theorem circLoopDM_spec {env : DMEnv} {w : ℕ} {ρ₀ : QDens} (hρ : IsMixture ρ₀) {l : List Instr}
    (hl : Circuit.listOk (Finset.range w) l) (hp : ∀ i ∈ l, i.Proper) :
    ∀ (post pre : List Instr) (cs : DMState × List Bool), l = pre ++ post → CircInvDM env w ρ₀ pre cs →
      (∃ cs', circLoopDM env post cs = .ok cs' ∧ CircInvDM env w ρ₀ l cs') ∨
      ∃ e, circLoopDM env post cs = .error e ∧ CircFails env.sel w ρ₀ l 0 .zeroDivisionError e := by
  intro post
  induction post with
  | nil =>
    intro pre cs h inv
    rw [List.append_nil] at h; subst h
    exact Or.inl ⟨cs, rfl, inv⟩
  | cons i post ih =>
    intro pre cs h inv
    have hok : Circuit.instrOk (Circuit.afterList (Finset.range w) pre) i = true := by
      rw [h, Circuit.listOk_append] at hl
      exact hl.2.1
    have next : ∀ cs', circStepDM env cs i = .ok cs' → CircInvDM env w ρ₀ (pre ++ [i]) cs' →
        (∃ cs', circLoopDM env (i :: post) cs = .ok cs' ∧ CircInvDM env w ρ₀ l cs') ∨
        ∃ e, circLoopDM env (i :: post) cs = .error e ∧ CircFails env.sel w ρ₀ l 0 .zeroDivisionError e := by
      intro cs' h1 h2
      have := ih (pre ++ [i]) cs' (by rw [h]; simp) h2
      simp only [circLoopDM, h1, bind, Except.bind]
      exact this
    by_cases hg : i.isGate
    · obtain ⟨cs', h1, h2⟩ := inv.gate hρ hg (hp i (by rw [h]; simp)) hok
      exact next cs' h1 h2
    · cases i <;> first | exact absurd trivial hg | skip
      rename_i t a
      rcases inv.M hρ hok with ⟨cs', h1, h2⟩ | ⟨e, h1, h2⟩
      · exact next cs' h1 h2
      · right
        exact ⟨e, by simp only [circLoopDM, h1, bind, Except.bind], pre, t, a, post, cs.2, h, inv.chosen, h2⟩

theorem circInputDM_ok (env : DMEnv) (w : ℕ) (data : DMData) (hd : data.Ok (List.range w)) :
    ∃ dm, initialDM.addNodes w data = .ok dm ∧ IsMixture (data.toDens (List.range w)) ∧
      CircInvDM env w (data.toDens (List.range w)) [] (⟨dm, NodeIndex.clear.extend (List.range w), [], 0⟩, []) := by
  obtain ⟨dm, h1, h2⟩ := dm_start_ok env none (List.range w) List.nodup_range data hd
  rw [List.length_range] at h1
  obtain ⟨i1, -, i3, i4, -, i6⟩ := h2 (fun _ => false)
  have hlist : (NodeIndex.clear.extend (List.range w)).list = List.range w := by simp [NodeIndex.clear, NodeIndex.extend]
  rw [hlist] at i3 i4 i6
  have hmix : absDens (List.range w) dm.rho = data.toDens (List.range w) := by
    have hdens : IsDensity (List.range w) (data.toDens (List.range w)) := by
      cases data with
      | pure d => exact init_pure_density List.nodup_range hd
      | matrix c m => exact hd.2.2.2
      | density m => exact hd.2.2
    obtain ⟨c, hc, e⟩ := i6 (fun _ => false) (fun n o h => by simp [PyDict.get?] at h)
    rw [densCmds_nil] at e
    have ht := i4.trace
    dsimp only at ht e
    rw [e, traceOn_smul, hdens.trace, mul_one] at ht
    rw [e, ht, one_smul]
  refine ⟨dm, h1, by rw [← hmix]; exact i4.mixture, ⟨i1, by rw [circLive_nil]; exact hlist, by rw [circLive_nil]; exact i3,
    by rw [circLive_nil]; exact i4⟩, rfl, CircChosen.nil, 1, one_pos, fun _ => rfl, ?_⟩
  rw [circLive_nil, Complex.ofReal_one, one_smul]
  show absDens (List.range w) dm.rho = _
  rw [hmix]
  funext b b'
  exact (congrFun (congrFun (conjBy_self (data.toDens (List.range w))) b) b').symm

/-- **C58** `Circuit.simulate` on the density-matrix backend, for every circuit built by the methods of the class whose `rzz` are on distinct
qubits, every input density matrix or state, and every branch selector: either the simulation reaches the end, the outcomes are the answers
of the branch selector, asked with the probabilities of quantum mechanics, and the returned matrix is the density operator of the circuit
for these outcomes, divided by their probability; or it stops at a measurement because the branch selector raised, or because it chose an
outcome of probability zero. -/
theorem C58_simulateDM (c : Circuit) (hc : c.Built) (hp : ∀ i ∈ c.instrs, i.Proper) (env : DMEnv) (data : DMData)
    (hd : data.Ok (List.range c.width)) :
    (∃ dm ms, c.simulateDM env data = .ok (dm, ms) ∧
      CircChosen env.sel c.width (data.toDens (List.range c.width)) c.instrs ms ∧
      dm.Shape (circLive c.width c.instrs).length ∧ IsDensity (circLive c.width c.instrs) (absDens (circLive c.width c.instrs) dm.rho) ∧
      circProb c.width (data.toDens (List.range c.width)) c.instrs ms ≠ 0 ∧
      absDens (circLive c.width c.instrs) dm.rho = (circProb c.width (data.toDens (List.range c.width)) c.instrs ms)⁻¹ •
        circDens (data.toDens (List.range c.width)) c.instrs ms) ∨
    ∃ e, c.simulateDM env data = .error e ∧
      CircFails env.sel c.width (data.toDens (List.range c.width)) c.instrs 0 .zeroDivisionError e := by
  obtain ⟨dm, h1, hmix, inv⟩ := circInputDM_ok env c.width data hd
  rcases circLoopDM_spec hmix hc.listOk.1 hp c.instrs [] _ rfl inv with ⟨cs, h2, inv'⟩ | ⟨e, h2, h3⟩
  · left
    obtain ⟨k, hk, -, hsem⟩ := inv'.sem
    have hone : (k : ℂ) * circProb c.width (data.toDens (List.range c.width)) c.instrs cs.2 = 1 := by
      unfold circProb
      rw [← traceOn_smul, ← hsem]; exact inv'.reg.dens.trace
    have hne : circProb c.width (data.toDens (List.range c.width)) c.instrs cs.2 ≠ 0 := by
      intro h0; rw [h0] at hone; simp at hone
    refine ⟨cs.1.dm, cs.2, ?_, inv'.chosen, inv'.reg.shape, inv'.reg.dens, hne, ?_⟩
    · unfold Circuit.simulateDM
      simp only [h1, h2, bind, Except.bind]; rfl
    · rw [hsem, eq_inv_of_mul_eq_one_left hone]
  · right
    refine ⟨e, ?_, h3⟩
    unfold Circuit.simulateDM
    simp only [h1, h2, bind, Except.bind]

/-- The answers of the selector determine the outcomes. -/
theorem CircChosen.unique {sel : PyDict ℕ Bool → ℕ → ℝ → Except PyErr Bool} {w : ℕ} {ρ₀ : QDens} {l : List Instr} {ms ms' : List Bool}
    (h : CircChosen sel w ρ₀ l ms) (h' : CircChosen sel w ρ₀ l ms') : ms = ms' := by
  have key : ∀ pre post : List Instr, l = pre ++ post → ms.take (circMeasured pre).length = ms'.take (circMeasured pre).length := by
    intro pre
    induction pre using List.reverseRecOn with
    | nil => intro post _; rfl
    | append_singleton pre i ih =>
      intro post hl
      have ih' := ih (i :: post) (by rw [hl]; simp)
      by_cases hg : i.isGate
      · rw [circMeasured_append, circMeasured_gate hg, List.append_nil]; exact ih'
      · cases i <;> first | exact absurd trivial hg | skip
        rename_i t a
        obtain ⟨p, p0, p1, p2, p3, p4⟩ := h.2 pre t a post (by rw [hl]; simp)
        obtain ⟨q, q0, q1, q2, q3, q4⟩ := h'.2 pre t a post (by rw [hl]; simp)
        rw [ih'] at p2 p3 p4
        have hpq : p = q := by
          have e := (p3 false).symm.trans (q3 false)
          have := mul_right_cancel₀ p2 e
          simp only [Bool.false_eq_true, if_false] at this
          exact_mod_cast this
        rw [hpq, q4] at p4
        have ho := Except.ok.inj p4
        rw [circMeasured_append, circMeasured_M, List.length_append, List.length_singleton]
        have hlt : (circMeasured pre).length < (circMeasured l).length := by
          rw [hl, circMeasured_append, circMeasured_append, circMeasured_M]; simp
        have e1 : ∀ x : List Bool, (circMeasured pre).length < x.length →
            x.take ((circMeasured pre).length + 1) = x.take (circMeasured pre).length ++ [outcomeOf x (circMeasured pre).length] := by
          intro x hx
          rw [List.take_add_one, List.getElem?_eq_getElem hx]
          simp [outcomeOf, List.getD, hx]
        rw [e1 ms (by rw [h.1]; exact hlt), e1 ms' (by rw [h'.1]; exact hlt), ih', ho]
  have := key l [] (by simp)
  rwa [List.take_of_length_le h.1.le, List.take_of_length_le h'.1.le] at this

/-- **C58** With the same branch selector and the same input state, if the simulations of a circuit on the two backends reach the end, they
return the same outcomes, and the density matrix is `|ψ⟩⟨ψ|`, where `ψ` is the state vector. -/
theorem C58_backends_agree (c : Circuit) (hc : c.Built) (hp : ∀ i ∈ c.instrs, i.Proper) (env : SimEnv) (henv : env.Ok []) (env' : DMEnv)
    (hsel : env.sel = env'.sel) (data : InputData) (plusObj : Bool)
    (hd : data.Ok c.width) (hplus : plusObj = true → data = .state PlanarState.plus) (junk : ℕ → Buf)
    (sv : Statevector) (ms : List Bool) (dm : DensityMatrix) (ms' : List Bool)
    (h1 : c.simulate env data plusObj junk = .ok (sv, ms)) (h2 : c.simulateDM env' (.pure data) = .ok (dm, ms')) :
    ms = ms' ∧ absDens (circLive c.width c.instrs) dm.rho = ketBra (absState (circLive c.width c.instrs) sv.psi) := by
  rcases C58_simulate c hc env henv data plusObj hd hplus junk with ⟨sv1, ms1, a1, a2, a3, a4, k, hk, -, a5⟩ | ⟨e, a1, -⟩
  swap
  · rw [h1] at a1; cases a1
  rcases C58_simulateDM c hc hp env' (.pure data) (by show data.Ok _; simpa using hd) with ⟨dm1, ms2, b1, b2, b3, b4, b5, b6⟩ | ⟨e, b1, -⟩
  swap
  · rw [h2] at b1; cases b1
  obtain ⟨rfl, rfl⟩ := Prod.mk.inj (Except.ok.inj (h1.symm.trans a1))
  obtain ⟨rfl, rfl⟩ := Prod.mk.inj (Except.ok.inj (h2.symm.trans b1))
  have hms : ms = ms' := by
    rw [hsel] at a2
    exact a2.unique b2
  subst hms
  refine ⟨rfl, ?_⟩
  have e3 : (DMData.pure data).toDens (List.range c.width) = ketBra (data.toState (List.range c.width)) := rfl
  rw [e3] at b5 b6
  rw [b6, a5, ketBra_smul, circDens_pure]
  congr 1
  have e : k * star k = ((Complex.normSq k : ℝ) : ℂ) := by rw [Complex.normSq_eq_conj_mul_self, mul_comm]; rfl
  rw [circProb_pure, e]
  have hn : Complex.normSq k * stateNormSq (circLive c.width c.instrs) (circState (data.toState (List.range c.width)) c.instrs ms) = 1 := by
    rw [← stateNormSq_smul, ← a5, stateNormSq_abs _ (circLive_nodup _ _), ← a3, a4]
  have : Complex.normSq k = (stateNormSq (circLive c.width c.instrs) (circState (data.toState (List.range c.width)) c.instrs ms))⁻¹ :=
    eq_inv_of_mul_eq_one_left hn
  rw [this]; push_cast; rfl

/-- **C58** The exclusion of `rzz` on twice the same qubit is necessary: the methods of `Circuit` accept it, the state-vector backend
simulates it, and the density-matrix backend raises `ValueError`. -/
theorem C58_rzz_self (env : DMEnv) (θ : ℝ) : ∃ c : Circuit, c.Built ∧ c.instrs = [.RZZ 0 0 θ] ∧
    (∀ env' : SimEnv, env'.Ok [] → ∀ junk, ∃ r, c.simulate env' (.state PlanarState.plus) true junk = .ok r) ∧
    c.simulateDM env (.pure (.state PlanarState.plus)) = .error .valueError := by
  have hb : Circuit.Built ⟨1, [.RZZ 0 0 θ], Finset.range 1⟩ := ⟨1, [.RZZ 0 0 θ], Circuit.extend_ok_iff.2
    ⟨by simp [Circuit.listOk, Circuit.instrOk, Circuit.new], rfl⟩⟩
  refine ⟨⟨1, [.RZZ 0 0 θ], Finset.range 1⟩, hb, rfl, ?_, ?_⟩
  · intro env' henv' junk
    rcases C58_simulate _ hb env' henv' (.state PlanarState.plus) true trivial (fun _ => rfl) junk with ⟨sv, ms, h, -⟩ | ⟨e, -, h⟩
    · exact ⟨_, h⟩
    · obtain ⟨pre, t, a, post, ms, h, -⟩ := h
      have : Instr.M t a ∈ [Instr.RZZ 0 0 θ] := by
        have h' : [Instr.RZZ 0 0 θ] = pre ++ Instr.M t a :: post := h
        rw [h']; simp
      simp at this
  obtain ⟨dm, h1, -, inv⟩ := circInputDM_ok env 1 (.pure (.state PlanarState.plus)) trivial
  have hreg := inv.reg
  rw [circLive_nil] at hreg
  have hmem : (0 : ℕ) ∈ (NodeIndex.clear.extend (List.range 1)).list := by simp [NodeIndex.clear, NodeIndex.extend]
  have hrej : ∀ q, dm.evolve (Ops.npRzz θ) [q, q] = .error .valueError := fun q => C56_evolve_rejects dm _ hreg.shape _ _ (by simp)
  have hloop : circLoopDM env [.RZZ 0 0 θ] (⟨dm, NodeIndex.clear.extend (List.range 1), [], 0⟩, []) = .error .valueError := by
    simp only [circLoopDM, circStepDM, DMState.evolveNodes, indices_ok hreg.idx [0, 0] (by simpa using hmem), List.map_cons, List.map_nil,
      hrej, bind, Except.bind]
  unfold Circuit.simulateDM
  simp only [h1, hloop, bind, Except.bind]

/-! ### Non-vacuity -/

theorem exampleEnv_okNil : exampleEnv.Ok [] where
  plus := by intro k n s h; simp at h
  cz := exampleEnv_ok.cz
  op := exampleEnv_ok.op
  exp := exampleEnv_ok.exp
  proj := exampleEnv_ok.proj

/-- If the branch selector answers, and never chooses an outcome of small probability, the simulation reaches the end. -/
theorem C58_no_failure (c : Circuit) (hc : c.Built) (env : SimEnv) (henv : env.Ok []) (data : InputData) (plusObj : Bool)
    (hd : data.Ok c.width) (hplus : plusObj = true → data = .state PlanarState.plus) (junk : ℕ → Buf)
    (hsel : ∀ res n p0, 0 ≤ p0 → p0 ≤ 1 → ∃ o, env.sel res n p0 = .ok o ∧ 2 * atol < if o then 1 - p0 else p0) :
    ∃ sv ms, c.simulate env data plusObj junk = .ok (sv, ms) := by
  rcases C58_simulate c hc env henv data plusObj hd hplus junk with ⟨sv, ms, h, -⟩ | ⟨e, -, pre, t, a, post, ms, -, -, h⟩
  · exact ⟨sv, ms, h⟩
  · exfalso
    rcases h with ⟨p0, h0, h1, -, -, h2⟩ | ⟨o, ⟨p0, h0, h1, h2, h3, h4⟩, -, h5⟩
    · obtain ⟨o, ho, -⟩ := hsel (circRecord pre ms) t p0 h0 h1
      rw [ho] at h2; cases h2
    · obtain ⟨o', ho, hlt⟩ := hsel (circRecord pre ms) t p0 h0 h1
      obtain rfl := Except.ok.inj (ho.symm.trans h4)
      rw [h3 o', norm_mul, Complex.norm_real] at h5
      have := le_of_mul_le_mul_right h5 (norm_pos_iff.2 h2)
      exact absurd (le_trans (le_abs_self _) this) (not_le.2 hlt)

example : ∃ sv ms, exCircuit.simulate exampleEnv (.state PlanarState.plus) true (fun _ _ => 7) = .ok (sv, ms) :=
  C58_no_failure exCircuit exCircuit_built exampleEnv exampleEnv_okNil (.state PlanarState.plus) true trivial (fun _ => rfl) _ (by
    intro _ _ p0 h0 h1
    refine ⟨_, rfl, ?_⟩
    unfold atol
    by_cases h : p0 < 1 / 2
    · simp only [h, decide_true, if_true]; norm_num at h ⊢; linarith
    · simp only [h, decide_false, Bool.false_eq_true, if_false]; norm_num at h ⊢; linarith)

end Graphix
