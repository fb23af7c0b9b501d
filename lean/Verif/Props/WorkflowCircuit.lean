import Verif.Props.Workflow
import Verif.Props.DetSim
import Verif.Props.Parallelize

/-!
# Property C79: scripts on the patterns of circuits, and simulation of the results
-/

namespace Graphix

open Function
open scoped symmDiff

/-! ### The patterns of circuits are tidy -/

/-- Without Clifford commands no Clifford is recorded. -/
theorem StdBody.run_no_clifford (l : List Command) (hl : ∀ n c, Command.C n c ∉ l) :
    ∀ b : StdBody, b.cDict = [] → ∃ b', b.run l = .ok b' ∧ b'.cDict = [] := by
  induction l with
  | nil => intro b hb; exact ⟨b, rfl, hb⟩
  | cons c l ih =>
    intro b hb
    have key : ∃ b', b.step c = .ok b' ∧ b'.cDict = [] := by
      cases c with
      | N n st => exact ⟨_, rfl, hb⟩
      | E u v =>
        have side : ∀ (b : StdBody) i j, b.cDict = [] → ∃ b', b.edgeSide i j = .ok b' ∧ b'.cDict = [] := by
          intro b i j hb
          unfold StdBody.edgeSide
          rw [hb]
          exact ⟨_, rfl, rfl⟩
        obtain ⟨b1, h1, h1'⟩ := side b u v hb
        obtain ⟨b2, h2, h2'⟩ := side b1 v u h1'
        refine ⟨{ b2 with eSet := b2.eSet ∆ {s(u, v)} }, ?_, h2'⟩
        change (b.edgeSide u v >>= fun b1 => b1.edgeSide v u >>= fun b2 =>
          pure { b2 with eSet := b2.eSet ∆ {s(u, v)} }) = _
        rw [h1]; change (b1.edgeSide v u >>= _) = _; rw [h2]; rfl
      | M n m s t =>
        change ∃ b', b.measureCase ⟨n, m, s, t⟩ = .ok b' ∧ _
        unfold StdBody.measureCase
        rw [hb]
        exact ⟨_, rfl, rfl⟩
      | X n d =>
        change ∃ b', b.correctionCase n ⟨d, ∅⟩ = .ok b' ∧ _
        unfold StdBody.correctionCase
        obtain ⟨d', h, -⟩ := C04_commute_domains ((PyDict.get? b.cDict n).getD Clifford.I) ⟨d, ∅⟩
        rw [h]; exact ⟨_, rfl, hb⟩
      | Z n d =>
        change ∃ b', b.correctionCase n ⟨∅, d⟩ = .ok b' ∧ _
        unfold StdBody.correctionCase
        obtain ⟨d', h, -⟩ := C04_commute_domains ((PyDict.get? b.cDict n).getD Clifford.I) ⟨∅, d⟩
        rw [h]; exact ⟨_, rfl, hb⟩
      | C n g => exact absurd (by simp) (hl n g)
      | S n d => exact ⟨_, rfl, hb⟩
      | T => exact ⟨_, rfl, hb⟩
    obtain ⟨b1, h1, h2⟩ := key
    obtain ⟨b', h', h''⟩ := ih (fun n g hm => hl n g (by simp [hm])) b1 h2
    exact ⟨b', by change (b.step c >>= fun b => b.run l) = _; rw [h1]; exact h', h''⟩

theorem optSeq_no_clifford {sp : StdPattern} (hc : sp.cDict = []) {nbr : ℕ → List ℕ} {st : OptState} (h : sp.optSeq nbr = .ok st) :
    ∀ n g, Command.C n g ∉ st.seq := by
  have act : ∀ {nd : PyDict ℕ PlanarState} {s s' : OptState} {n : ℕ}, (∀ n g, Command.C n g ∉ s.seq) → s.ensureActive nd n = .ok s' →
      ∀ n g, Command.C n g ∉ s'.seq := by
    intro nd s s' n h he
    unfold OptState.ensureActive at he
    split at he
    · cases he; exact h
    · split at he
      · cases he
      · cases he
        intro k g hk
        simp only [List.mem_append, List.mem_singleton, reduceCtorEq, or_false] at hk
        exact h k g hk
  have link : ∀ {nd : PyDict ℕ PlanarState} {n : ℕ} (l : List ℕ) {s s' : OptState}, (∀ n g, Command.C n g ∉ s.seq) →
      l.foldlM (OptState.linkNeighbor nd n) s = .ok s' → ∀ n g, Command.C n g ∉ s'.seq := by
    intro nd n l
    induction l with
    | nil => intro s s' h he; cases he; exact h
    | cons v l ih =>
      intro s s' h he
      rw [List.foldlM_cons] at he
      obtain ⟨s1, h1, h2⟩ := (bind_ok_iff _ _ _).1 he
      refine ih ?_ h2
      unfold OptState.linkNeighbor at h1
      split at h1
      · cases h1; exact h
      · obtain ⟨s2, g1, g2⟩ := (bind_ok_iff _ _ _).1 h1
        cases g2
        intro k g hk
        simp only [List.mem_append, List.mem_singleton, reduceCtorEq, or_false] at hk
        exact act h g1 k g hk
  have nb : ∀ {nd : PyDict ℕ PlanarState} {n : ℕ} {s s' : OptState}, (∀ n g, Command.C n g ∉ s.seq) →
      s.ensureNeighborhood nd nbr n = .ok s' → ∀ n g, Command.C n g ∉ s'.seq := by
    intro nd n s s' h he
    obtain ⟨s1, h1, h2⟩ := (bind_ok_iff _ _ _).1 he
    exact link _ (act h h1) h2
  obtain ⟨st1, h1, h2⟩ := (bind_ok_iff _ _ _).1 h
  have m : ∀ (l : List MCmd) (s s' : OptState), (∀ n g, Command.C n g ∉ s.seq) → l.foldlM (sp.optMeasure nbr) s = .ok s' →
      ∀ n g, Command.C n g ∉ s'.seq := by
    intro l
    induction l with
    | nil => intro s s' h he; cases he; exact h
    | cons m l ih =>
      intro s s' h he
      rw [List.foldlM_cons] at he
      obtain ⟨s1, g1, g2⟩ := (bind_ok_iff _ _ _).1 he
      obtain ⟨s2, k1, k2⟩ := (bind_ok_iff _ _ _).1 g1
      cases k2
      refine ih _ s' ?_ g2
      intro k g hk
      simp only [List.mem_append, List.mem_singleton, MCmd.toCmd, reduceCtorEq, or_false] at hk
      exact nb h k1 k g hk
  have o : ∀ (l : List ℕ) (s s' : OptState), (∀ n g, Command.C n g ∉ s.seq) → l.foldlM (sp.optOutput nbr) s = .ok s' →
      ∀ n g, Command.C n g ∉ s'.seq := by
    intro l
    induction l with
    | nil => intro s s' h he; cases he; exact h
    | cons m l ih =>
      intro s s' h he
      rw [List.foldlM_cons] at he
      obtain ⟨s1, g1, g2⟩ := (bind_ok_iff _ _ _).1 he
      obtain ⟨s2, k1, k2⟩ := (bind_ok_iff _ _ _).1 g1
      cases k2
      refine ih _ s' ?_ g2
      intro k g hk
      rcases List.mem_append.1 hk with hk | hk
      · exact nb h k1 k g hk
      · unfold StdPattern.optCorrections at hk
        rw [hc] at hk
        simp only [PyDict.get?, List.append_nil, List.mem_append] at hk
        rcases hk with hk | hk
        · split at hk
          · split at hk <;> simp at hk
          · simp at hk
        · split at hk
          · split at hk <;> simp at hk
          · simp at hk
  exact o _ _ _ (m _ _ _ (by simp) h1) h2

theorem keepSwaps_tidy {c : Circuit} (hc : c.Built) (hp : ∀ i ∈ c.instrs, i.Proper ∧ ¬ i.isId) {ord : SetOrd} (hord : ord.Valid)
    {eord : List (ℕ × ℕ) → List (ℕ × ℕ)} (he : EdgeOrd.Valid eord) {nbr : Finset (Sym2 ℕ) → ℕ → List ℕ} (hnbr : NbrOrd.Valid nbr)
    {res : TranspiledPattern} (h : c.transpileKeepSwaps ord eord nbr = .ok res) :
    (∀ n st, Command.N n st ∈ res.pattern.seq → st = PlanarState.plus) ∧ ∀ n g, Command.C n g ∉ res.pattern.seq := by
  obtain ⟨hok, hact⟩ := hc.listOk
  obtain ⟨jok, jaft, jms⟩ := jcz_listOk c.instrs _ hp hok
  have hjcz := jcz_isJcz c.instrs
  obtain ⟨st, σ, hrun, hinv, hsem⟩ := JInv.run (w := c.width) (instructionsToJcz c.instrs) hjcz (JInv.init c.width) (done := [])
    (by intro ψ hψ; exact ⟨hψ, rfl⟩) jok
  obtain ⟨z, layers, hz, hl, hflow⟩ := hinv.flow he hord
  have hv := hinv.og_valid he
  have hloop := hinv.og_loop he
  have hxk : st.x.keys.Nodup := by rw [hinv.xk]; exact hinv.mknd
  have hcheck := (C29_causalflow ⟨st.openGraph c.width eord, st.x, layers⟩ hv hxk ord hord).2 hflow
  obtain ⟨xz, hxz, hog, hwf, ht, hdet⟩ := C30_causalflow ⟨st.openGraph c.width eord, st.x, layers⟩ hv hloop hxk ord hord hcheck
  have hog' : xz.og = st.openGraph c.width eord := hog
  obtain ⟨p, hp1, hp2, -, hp3, hp4, hp5, -, hp6, -⟩ := hdet none (by simp)
  obtain ⟨p', hq1, -, -, -, -, hq6, hq7, ns, hq8, -, -⟩ := C31_to_pattern xz (by rw [hog']; exact hv) ord hord hwf ht none (by simp)
  rw [hp1] at hq1; cases hq1
  have hN : ∀ n s, Command.N n s ∈ p.seq → s = PlanarState.plus := by
    intro u v huv
    rw [hq8] at huv
    unfold patternCmds at huv
    simp only [List.mem_append, List.mem_map, List.mem_flatMap, blockOf] at huv
    rcases huv with ⟨n, -, h'⟩ | ⟨e, hm, h'⟩ | ⟨n, -, h'⟩ | ⟨kv, -, h'⟩
    · cases h'; rfl
    · cases h'
    · simp at h'
    · cases h'
  have hC : ∀ n g, Command.C n g ∉ p.seq := by
    intro n g hm
    rw [hq8] at hm
    unfold patternCmds at hm
    simp only [List.mem_append, List.mem_map, List.mem_flatMap, blockOf] at hm
    rcases hm with ⟨n, -, h'⟩ | ⟨e, hm, h'⟩ | ⟨n, -, h'⟩ | ⟨kv, hm, h'⟩
    · cases h'
    · cases h'
    · simp at h'
    · rw [hog'] at hm; simp [JczState.openGraph] at hm
  obtain ⟨body, hb, hb'⟩ := StdBody.run_no_clifford p.seq hC StdBody.init rfl
  have hstd : StdPattern.fromPattern p = .ok { body with inputs := p.inputs, outputs := p.outputs } := by
    unfold StdPattern.fromPattern
    rw [hp2, hb]; rfl
  have hE : NoSelfLoop p.seq := by
    intro u v huv
    rw [hq8] at huv
    unfold patternCmds at huv
    simp only [List.mem_append, List.mem_map, List.mem_flatMap, blockOf] at huv
    rcases huv with ⟨n, -, h'⟩ | ⟨e, hm, h'⟩ | ⟨n, -, h'⟩ | ⟨kv, -, h'⟩
    · cases h'
    · cases h'; rw [hog'] at hm; exact hloop e hm
    · simp at h'
    · cases h'
  set sp : StdPattern := { body with inputs := p.inputs, outputs := p.outputs } with hsp
  have hspwf := fromPattern_wf hq7 hE hstd
  obtain ⟨q, hqok⟩ := C19_succeeds sp hspwf _ (hnbr sp.eSet)
  have hres : c.transpileKeepSwaps ord eord nbr =
      .ok ⟨q.extend (st.classical.map fun kv => Command.M kv.1 (.pauli ⟨kv.2, .plus⟩) ∅ ∅), st.classical.keys⟩ := by
    unfold Circuit.transpileKeepSwaps Circuit.transpileToCausalFlow TranspiledFlow.toPattern
    simp only [hrun, hv.post, hz, hl, hxz, hp1, hstd, hqok, bind, Except.bind, pure, Except.pure]
  obtain rfl := Except.ok.inj (h.symm.trans hres)
  have htq := tidy_of_opt hspwf (fromPattern_plus hN hstd) (hnbr sp.eSet) hqok
  obtain ⟨ost, o1, o2, -⟩ := toSpaceOptimal_ok hqok
  have hqC := optSeq_no_clifford hb' o1
  rw [← o2] at hqC
  obtain ⟨eseq, -⟩ := extend_seq q (st.classical.map fun kv => Command.M kv.1 (.pauli ⟨kv.2, .plus⟩) ∅ ∅)
  refine ⟨fun n s hn => ?_, fun n g hn => ?_⟩
  · rw [eseq] at hn
    rcases List.mem_append.1 hn with hn | hn
    · exact htq.plus n s hn
    · simp at hn
  · rw [eseq] at hn
    rcases List.mem_append.1 hn with hn | hn
    · exact hqC n g hn
    · simp at hn

/-- **C79** The patterns of circuits are such patterns. -/
theorem C79_transpiled_tidy (c : Circuit) (hc : c.Built) (hp : ∀ i ∈ c.instrs, i.Proper ∧ ¬ i.isId) (ord : SetOrd) (hord : ord.Valid)
    (eord : List (ℕ × ℕ) → List (ℕ × ℕ)) (he : EdgeOrd.Valid eord) (nbr : Finset (Sym2 ℕ) → ℕ → List ℕ) (hnbr : NbrOrd.Valid nbr)
    (res : TranspiledPattern) (h : c.transpile ord eord nbr = .ok res ∨ c.transpileKeepSwaps ord eord nbr = .ok res) : Tidy res.pattern := by
  rcases h with h | h
  · obtain ⟨σ, k, hr, -⟩ := transpile_realizes hc hp hord he hnbr h
    obtain ⟨l', outs, π, h1, h2, -, -, -, -, h5, -⟩ := swaps_all c hc
    unfold Circuit.transpile at h
    obtain ⟨sw, hsw, h⟩ := (bind_ok_iff _ _ _).1 h
    obtain rfl := Except.ok.inj (h1.symm.trans hsw)
    obtain ⟨res1, h3, h⟩ := (bind_ok_iff _ _ _).1 h
    obtain ⟨outs1, -, h⟩ := (bind_ok_iff _ _ _).1 h
    obtain ⟨p, h4, h⟩ := (bind_ok_iff _ _ _).1 h
    obtain ⟨cl, -, h⟩ := (bind_ok_iff _ _ _).1 h
    cases h
    unfold Pattern.reorderOutputNodes at h4
    obtain ⟨_, -, h4⟩ := (bind_ok_iff _ _ _).1 h4
    cases h4
    obtain ⟨k1, k2⟩ := keepSwaps_tidy h2 (h5 hp) hord he hnbr h3
    exact ⟨hr.ok, hr.run, hr.noS, hr.noLoop, k1, cliffordsLast_of_none k2⟩
  · obtain ⟨σ, k, hr, -⟩ := transpileKeepSwaps_realizes hc hp hord he hnbr h
    obtain ⟨k1, k2⟩ := keepSwaps_tidy hc hp hord he hnbr h
    exact ⟨hr.ok, hr.run, hr.noS, hr.noLoop, k1, cliffordsLast_of_none k2⟩

/-! ### Runs -/

/-- On this input all branches of the pattern give the same state, up to a phase. -/
def SameBranches (p : Pattern) (ψ : QState) : Prop := ∀ r r' : ℕ → Bool, ∃ c : ℂ, ‖c‖ = 1 ∧ semCmds r p.seq ψ = c • semCmds r' p.seq ψ

theorem Tidy.absent {p : Pattern} (hp : Tidy p) {ψ : QState} (hon : OnNodes p.inputs ψ) : Absent p.preparedNodes ψ := by
  refine hon.absent fun n hn hc => ?_
  have hnd := ((checkRunnability_iff p).1 hp.runnable).introduced_nodup hp.outputs.inputs_nodup
  unfold introduced at hnd
  exact (List.nodup_append.1 hnd).2.2 n hn n (List.mem_toFinset.1 hc) rfl

theorem Deterministic.sameBranches {p : Pattern} (hp : Tidy p) (hdet : Deterministic p) {ψ : QState} (hon : OnNodes p.inputs ψ) : SameBranches p ψ := by
  intro r r'
  obtain ⟨⟨c, hc, h⟩, -⟩ := hdet r r'
  exact ⟨c, hc, h _ (hp.absent hon)⟩

theorem branchProb_outputs {p : Pattern} (hp : Tidy p) (r : ℕ → Bool) (ψ : QState) :
    branchProb p.inputs ψ p.seq r = stateNormSq p.outputs (semCmds r p.seq ψ) :=
  stateNormSq_mem (nodup_liveList _ _) hp.outputs.outputs_nodup (fun n => by rw [mem_liveList, hp.outputs.outputs]) _

theorem SameBranches.prob {p : Pattern} {ψ : QState} (h : SameBranches p ψ) (r r' : ℕ → Bool) :
    branchProb p.inputs ψ p.seq r = branchProb p.inputs ψ p.seq r' := by
  obtain ⟨c, hc, h⟩ := h r r'
  unfold branchProb
  rw [h, stateNormSq_smul, Complex.normSq_eq_norm_sq, hc]
  simp

theorem SameBranches.ne_zero {p : Pattern} (hp : Tidy p) (data : InputData) (hd : data.Ok p.inputs.length)
    (h : SameBranches p (data.toState p.inputs)) (r : ℕ → Bool) : semCmds r p.seq (data.toState p.inputs) ≠ 0 := by
  intro h0
  have e0 := branchProb_prefix (toState_on p.inputs data) p.seq [] (by simpa using (checkRunnability_iff p).1 hp.runnable)
    (C := branchProb p.inputs (data.toState p.inputs) p.seq r) (by intro r'; simpa using h.prob r' r) r
  rw [branchProb_nil hp.outputs.inputs_nodup data hd, branchProb_outputs hp, h0] at e0
  simp [stateNormSq] at e0

theorem Optimized.scalar {p q : Pattern} {w : ℕ} {σ : Equiv.Perm ℕ} (hp : Tidy p) (ho : Optimized p q w σ) (data : InputData)
    (hd : data.Ok p.inputs.length) (h : SameBranches p (data.toState p.inputs)) (r : ℕ → Bool) :
    ∃ r₀ : ℕ → Bool, ∃ c : ℂ, c ≠ 0 ∧ (w = 0 → ‖c‖ = (1 / Real.sqrt 2) ^ (p.preparedNodes.card - q.preparedNodes.card)) ∧
      semCmds r₀ p.seq (data.toState p.inputs) = c • ren σ (semCmds r q.seq (data.toState p.inputs)) := by
  obtain ⟨r₀, c, hc, e⟩ := ho.sem r
  have e := e _ (hp.absent (toState_on p.inputs data))
  refine ⟨r₀, c, ?_, hc, e⟩
  rintro rfl
  rw [zero_smul] at e
  exact h.ne_zero hp data hd r₀ e

/-- What a run of the optimized pattern that ends gives. -/
theorem Optimized.run_state {p q : Pattern} {w : ℕ} {σ : Equiv.Perm ℕ} (hp : Tidy p) (hq : Tidy q) (ho : Optimized p q w σ) {data : InputData}
    (hd : data.Ok p.inputs.length) (h : SameBranches p (data.toState p.inputs)) {env : SimEnv} (henv : env.Ok q.seq) {plusObj : Bool}
    (hplus : plusObj = true → data = .state PlanarState.plus) {junk : ℕ → Buf} {st : SimState} (hst : simulate env q data plusObj junk = .ok st) :
    st.sv.nqubit = p.outputs.length ∧ normSq p.outputs.length st.sv.psi = 1 ∧
      ∃ c : ℂ, c ≠ 0 ∧ absState p.outputs st.sv.psi = c • semCmds (fun _ => false) p.seq (data.toState p.inputs) := by
  rcases C10_run env q henv hq.outputs hq.runnable hq.noSignal data plusObj (by rw [ho.inputs]; exact hd) hplus junk with
    ⟨st', a1, -, -, a2, -, a3⟩ | ⟨e, a1, -⟩
  swap
  · rw [hst] at a1; cases a1
  obtain rfl := Except.ok.inj (hst.symm.trans a1)
  obtain ⟨r, hr⟩ := exists_agrees st.results
  obtain ⟨-, c1, c, c2⟩ := a3 r hr
  rw [ho.inputs] at c2
  obtain ⟨r₀, k, hk, -, e⟩ := ho.scalar hp data hd h r
  obtain ⟨d, -, e'⟩ := h r₀ fun _ => false
  have hlen : p.outputs.length = q.outputs.length := by rw [← ho.outputs, List.length_map]
  have hn : normSq p.outputs.length st.sv.psi = 1 := by
    rw [hlen, ← stateNormSq_abs _ hq.outputs.outputs_nodup]; exact c1
  have hmap : absState p.outputs st.sv.psi = ren σ (absState q.outputs st.sv.psi) := by
    rw [← ho.outputs]; funext b; simp only [absState, ren, enc_map]
  have hfin : absState p.outputs st.sv.psi = (c * (k⁻¹ * d)) • semCmds (fun _ => false) p.seq (data.toState p.inputs) := by
    rw [hmap, c2, ren_smul, ← smul_smul c, ← smul_smul, ← e', e, smul_smul k⁻¹, inv_mul_cancel₀ hk, one_smul]
  refine ⟨by rw [a2, hlen], hn, _, ?_, hfin⟩
  intro h0
  rw [h0, zero_smul] at hfin
  rw [← stateNormSq_abs _ hp.outputs.outputs_nodup, hfin] at hn
  simp [stateNormSq] at hn

theorem stateNormSq_ren (l : List ℕ) (σ : Equiv.Perm ℕ) (Φ : QState) : stateNormSq (l.map σ) (ren σ Φ) = stateNormSq l Φ := by
  unfold stateNormSq
  symm
  refine Finset.sum_bij (fun S _ => S.image σ) ?_ ?_ ?_ ?_
  · intro S hS
    rw [Finset.mem_powerset] at hS ⊢
    intro x hx
    obtain ⟨y, hy, rfl⟩ := Finset.mem_image.1 hx
    have := hS hy
    simp only [List.mem_toFinset, List.mem_map] at this ⊢
    exact ⟨y, this, rfl⟩
  · intro S _ S' _ h
    exact Finset.image_injective σ.injective h
  · intro S hS
    rw [Finset.mem_powerset] at hS
    refine ⟨S.image σ.symm, ?_, ?_⟩
    · rw [Finset.mem_powerset]
      intro x hx
      obtain ⟨y, hy, rfl⟩ := Finset.mem_image.1 hx
      have := hS hy
      simp only [List.mem_toFinset, List.mem_map] at this ⊢
      obtain ⟨z, hz, rfl⟩ := this
      simpa using hz
    · simp [Finset.image_image]
  · intro S _
    unfold ren
    congr 2
    funext n
    simp

/-- The branches of the optimized pattern are equally likely, when there was no warning. -/
theorem Optimized.uniform {p q : Pattern} {σ : Equiv.Perm ℕ} (hp : Tidy p) (hq : Tidy q) (ho : Optimized p q 0 σ) {data : InputData}
    (hd : data.Ok p.inputs.length) (h : SameBranches p (data.toState p.inputs)) (r r' : ℕ → Bool) :
    branchProb q.inputs (data.toState q.inputs) q.seq r = branchProb q.inputs (data.toState q.inputs) q.seq r' := by
  rw [ho.inputs]
  have key : ∀ r, branchProb p.inputs (data.toState p.inputs) p.seq (fun _ => false) =
      ((1 / Real.sqrt 2) ^ (p.preparedNodes.card - q.preparedNodes.card)) ^ 2 * branchProb p.inputs (data.toState p.inputs) q.seq r := by
    intro r
    obtain ⟨r₀, k, hk, hk', e⟩ := ho.scalar hp data hd h r
    rw [h.prob (fun _ => false) r₀, branchProb_outputs hp, e, stateNormSq_smul, Complex.normSq_eq_norm_sq, hk' rfl, ← ho.outputs]
    congr 1
    have := branchProb_outputs hq r (data.toState p.inputs)
    rw [ho.inputs] at this
    rw [this]
    exact stateNormSq_ren _ _ _
  have h1 := key r
  have h2 := key r'
  rw [h1] at h2
  exact mul_left_cancel₀ (by positivity) h2

/-- **C79** A deterministic pattern and what a script makes of it: runs of the two on the same input end in the same state, whatever outcomes they get
(the fidelity is 1), and when no warning was given no run of the optimized pattern fails. -/
theorem C79_deterministic (p : Pattern) (hp : Tidy p) (hdet : Deterministic p) (l : List OptCall) (hl : OptCall.AllOk p l) :
    ∃ q w, OptCall.runAll p l = .ok (q, w) ∧
      ∀ (env env' : SimEnv) (_ : env.Ok p.seq) (_ : env'.Ok q.seq) (data : InputData) (plusObj plusObj' : Bool) (_ : data.Ok p.inputs.length)
        (_ : plusObj = true → data = .state PlanarState.plus) (_ : plusObj' = true → data = .state PlanarState.plus) (junk junk' : ℕ → Buf),
        (∀ st st', simulate env p data plusObj junk = .ok st → simulate env' q data plusObj' junk' = .ok st' →
          SameState st'.sv st.sv ∧ st'.sv.fidelity st.sv = .ok 1) ∧
        (w = 0 → (∀ results n, ∃ o, env'.sel results n (1 / 2) = .ok o) → ∃ st', simulate env' q data plusObj' junk' = .ok st') := by
  obtain ⟨q, w, σ, h1, hq, ho⟩ := C79_script p hp l hl
  refine ⟨q, w, h1, ?_⟩
  intro env env' henv henv' data plusObj plusObj' hd hplus hplus' junk junk'
  have hsb := Deterministic.sameBranches hp hdet (toState_on p.inputs data)
  refine ⟨fun st st' hst hst' => ?_, fun hw hsel => ?_⟩
  · obtain ⟨n1, n2, c, hc, n3⟩ := (Optimized.refl p hp).run_state hp hp hd hsb henv hplus hst
    obtain ⟨m1, m2, d, -, m3⟩ := ho.run_state hp hq hd hsb henv' hplus' hst'
    have hsame : SameState st'.sv st.sv := by
      refine ⟨by rw [n1, m1], by rw [m1]; exact m2, by rw [n1]; exact n2, ?_⟩
      rw [n1]
      exact phase_of_prop hp.outputs.outputs_nodup (σ := id) (fun a _ b _ h => h) hc (a := d) (by rw [List.map_id]; exact m3) n3 m2 n2
    exact ⟨hsame, C59_fidelity hsame⟩
  · subst hw
    obtain ⟨st', hst', -⟩ := C10_uniform env' q henv' hq.outputs hq.runnable hq.noSignal data plusObj' (by rw [ho.inputs]; exact hd) hplus' junk'
      (ho.uniform hp hq hd hsb) hsel
    exact ⟨st', hst'⟩

/-- **C79** The workflow of the README, for every circuit without measurements and without `i`, whose gates act on distinct qubits: `transpile()`
succeeds, every script of optimizations succeeds, and every run of the pattern at the end of the script ends in the state that `Circuit.simulate`
gives (the fidelity is 1); when no warning was given, no run fails. -/
theorem C79_circuit (c : Circuit) (hc : c.Built) (hp : ∀ i ∈ c.instrs, i.Proper ∧ ¬ i.isId) (hm : circMeasured c.instrs = [])
    (ord : SetOrd) (hord : ord.Valid)
    (eord : List (ℕ × ℕ) → List (ℕ × ℕ)) (he : EdgeOrd.Valid eord) (nbr : Finset (Sym2 ℕ) → ℕ → List ℕ) (hnbr : NbrOrd.Valid nbr) :
    ∃ res, c.transpile ord eord nbr = .ok res ∧ ∀ l, OptCall.AllOk res.pattern l → ∃ q w, OptCall.runAll res.pattern l = .ok (q, w) ∧
      ∀ (env env' : SimEnv) (_ : env.Ok q.seq) (_ : env'.Ok []) (data : InputData) (plusObj plusObj' : Bool) (_ : data.Ok c.width)
        (_ : plusObj = true → data = .state PlanarState.plus) (_ : plusObj' = true → data = .state PlanarState.plus) (junk junk' : ℕ → Buf),
        ∃ sv, c.simulate env' data plusObj' junk' = .ok (sv, []) ∧
          (∀ st, simulate env q data plusObj junk = .ok st → SameState st.sv sv ∧ st.sv.fidelity sv = .ok 1) ∧
          (w = 0 → (∀ results n, ∃ o, env.sel results n (1 / 2) = .ok o) → ∃ st, simulate env q data plusObj junk = .ok st) := by
  obtain ⟨res, hres, -, -⟩ := C59_unitary_total_partial c hc hp hm ord hord eord he nbr hnbr
  refine ⟨res, hres, fun l hl => ?_⟩
  have ht := C79_transpiled_tidy c hc hp ord hord eord he nbr hnbr res (.inl hres)
  obtain ⟨σ', k, hr, -, -⟩ := transpile_realizes hc hp hord he hnbr hres
  obtain ⟨q, w, σ, h1, hq, ho⟩ := C79_script res.pattern ht l hl
  refine ⟨q, w, h1, ?_⟩
  intro env env' henv henv' data plusObj plusObj' hd hplus hplus' junk junk'
  have hd' : data.Ok res.pattern.inputs.length := by rw [hr.inputs]; simpa using hd
  have hbr := fun r => hr.state r (toState_on (List.range c.width) data) (fun _ => false) (by rw [hm]; simp)
  have hsb : SameBranches res.pattern (data.toState res.pattern.inputs) := by
    intro r r'
    obtain ⟨d, hd1, e⟩ := hbr r
    obtain ⟨d', hd2, e'⟩ := hbr r'
    have hd0 : d' ≠ 0 := by rintro rfl; simp at hd2
    refine ⟨d * d'⁻¹, by rw [norm_mul, norm_inv, hd1, hd2]; norm_num, ?_⟩
    rw [hr.inputs, e, e', smul_smul]
    congr 1
    field_simp
  rcases C58_simulate c hc env' henv' data plusObj' hd hplus' junk' with ⟨sv, ms, b1, b2, n1, n2, k', hk', -, n3⟩ | ⟨e, -, pre, t, a, post, ms, b1, -⟩
  swap
  · exfalso
    rw [b1, circMeasured_append] at hm
    simp [circMeasured] at hm
  have hms := b2.1
  rw [hm] at hms
  obtain rfl := List.length_eq_zero_iff.1 hms
  refine ⟨sv, b1, fun st hst => ?_, fun hw hsel => ?_⟩
  · obtain ⟨m1, m2, d, -, m3⟩ := ho.run_state ht hq hd' hsb henv hplus hst
    obtain ⟨f, -, e⟩ := hr.state (fun _ => false) (toState_on (List.range c.width) data) (outcomeOf []) (by rw [hm]; simp)
    have hlen : res.pattern.outputs.length = (circLive c.width c.instrs).length := by rw [hr.outputs, List.length_map]
    rw [hr.inputs, e, smul_smul, hr.outputs] at m3
    rw [hlen] at m1 m2
    have hsame : SameState st.sv sv := by
      refine ⟨by rw [m1, n1], by rw [m1]; exact m2, n2, ?_⟩
      rw [n1]
      exact phase_of_prop (circLive_nodup _ _) hr.live_inj hk' m3 n3 m2 (by rw [← n1]; exact n2)
    exact ⟨hsame, C59_fidelity hsame⟩
  · subst hw
    obtain ⟨st', hst', -⟩ := C10_uniform env q henv hq.outputs hq.runnable hq.noSignal data plusObj (by rw [ho.inputs]; exact hd') hplus junk
      (ho.uniform ht hq hd' hsb) hsel
    exact ⟨st', hst'⟩

/-! ### Examples -/

/-- The script of `README.md`: standardize, shift signals, infer Pauli measurements, remove them, minimize space. -/
noncomputable def readmeScript (choose : (ℕ → ℕ) → Finset ℕ → ℕ) : List OptCall :=
  [.standardize false Pattern.naturalGraphOrd, .shiftSignals, .inferPauliMeasurements 0 0 true,
    .removePauliMeasurements false true (fun _ s => s.sort (· ≤ ·)) exEnum sortedNbr, .minimizeSpace false exOrd choose exEnum sortedNbr]

theorem readmeScript_ok {choose : (ℕ → ℕ) → Finset ℕ → ℕ} (hc : ChooseOk choose) (p : Pattern) : OptCall.AllOk p (readmeScript choose) := by
  refine ⟨Pattern.naturalGraphOrd_valid, fun _ _ _ => ⟨trivial, fun _ _ _ => ⟨⟨le_rfl, le_rfl, ?_⟩, fun _ _ _ => ⟨⟨fun _ s x => ?_, exEnum_valid,
    sortedNbr_valid⟩, fun _ _ _ => ⟨⟨exOrd_valid, hc, exEnum_valid, sortedNbr_valid⟩, fun _ _ _ => trivial⟩⟩⟩⟩⟩
  · intro n b s t _ k hk
    rw [zero_mul, max_self] at hk
    exact sub_eq_zero.1 (abs_nonpos_iff.1 hk)
  · simp

/-- The workflow of the README on a circuit: the last pattern has runs, or there were warnings. -/
example : ∃ choose res q w sv, exUnitary.transpile exOrd id sortedNbr = .ok res ∧ OptCall.runAll res.pattern (readmeScript choose) = .ok (q, w) ∧
    exUnitary.simulate exampleEnv' (.state PlanarState.plus) true (fun _ _ => 3) = .ok (sv, []) ∧
    (w = 0 → ∃ st, simulate exampleEnv' q (.state PlanarState.plus) false (fun _ _ => 7) = .ok st ∧ st.sv.fidelity sv = .ok 1) := by
  obtain ⟨choose, hch⟩ := exists_choose
  obtain ⟨res, h1, h2⟩ := C79_circuit exUnitary exUnitary_built exUnitary_proper rfl exOrd exOrd_valid id idEdgeOrd_valid sortedNbr sortedNbr_valid
  obtain ⟨q, w, h3, h4⟩ := h2 _ (readmeScript_ok hch _)
  obtain ⟨sv, h5, h6, h7⟩ := h4 exampleEnv' exampleEnv' (exampleEnv_okAll _) (exampleEnv_okAll _) (.state PlanarState.plus) false true trivial
    (by simp) (by simp) (fun _ _ => 7) (fun _ _ => 3)
  refine ⟨choose, res, q, w, sv, h1, h3, h5, fun hw => ?_⟩
  obtain ⟨st, h8⟩ := h7 hw fun _ _ => ⟨_, rfl⟩
  exact ⟨st, h8, (h6 st h8).2⟩

/-- Without the removal of Pauli measurements there are no warnings: the last pattern has runs. -/
example : ∃ choose res q st sv, exUnitary.transpile exOrd id sortedNbr = .ok res ∧
    OptCall.runAll res.pattern [.standardize true Pattern.naturalGraphOrd, .shiftSignals, .minimizeSpace true exOrd choose exEnum sortedNbr] = .ok (q, 0) ∧
    simulate exampleEnv' q (.state PlanarState.plus) false (fun _ _ => 7) = .ok st ∧
    exUnitary.simulate exampleEnv' (.state PlanarState.plus) true (fun _ _ => 3) = .ok (sv, []) ∧ st.sv.fidelity sv = .ok 1 := by
  obtain ⟨choose, hch⟩ := exists_choose
  obtain ⟨res, h1, h2⟩ := C79_circuit exUnitary exUnitary_built exUnitary_proper rfl exOrd exOrd_valid id idEdgeOrd_valid sortedNbr sortedNbr_valid
  obtain ⟨q, w, h3, h4⟩ := h2 [.standardize true Pattern.naturalGraphOrd, .shiftSignals, .minimizeSpace true exOrd choose exEnum sortedNbr]
    ⟨Pattern.naturalGraphOrd_valid, fun _ _ _ => ⟨trivial, fun _ _ _ => ⟨⟨exOrd_valid, hch, exEnum_valid, sortedNbr_valid⟩, fun _ _ _ => trivial⟩⟩⟩
  obtain ⟨sv, h5, h6, h7⟩ := h4 exampleEnv' exampleEnv' (exampleEnv_okAll _) (exampleEnv_okAll _) (.state PlanarState.plus) false true trivial
    (by simp) (by simp) (fun _ _ => 7) (fun _ _ => 3)
  have hw : w = 0 := by
    simp only [OptCall.runAll] at h3
    obtain ⟨⟨q1, w1⟩, e1, h3⟩ := (bind_ok_iff _ _ _).1 h3
    obtain ⟨⟨q2, w2⟩, e2, h3⟩ := (bind_ok_iff _ _ _).1 h3
    obtain ⟨⟨q3, w3⟩, e3, e2⟩ := (bind_ok_iff _ _ _).1 e2
    obtain ⟨⟨q4, w4⟩, e4, e2⟩ := (bind_ok_iff _ _ _).1 e2
    obtain ⟨⟨q5, w5⟩, e5, e4⟩ := (bind_ok_iff _ _ _).1 e4
    obtain ⟨⟨q6, w6⟩, e6, e4⟩ := (bind_ok_iff _ _ _).1 e4
    have k1 : w1 = 0 := by
      simp only [OptCall.run, if_true] at e1
      obtain ⟨_, -, e1⟩ := (bind_ok_iff _ _ _).1 e1
      cases e1; rfl
    have k5 : w5 = 0 := by
      simp only [OptCall.run, if_true] at e5
      obtain ⟨_, -, e5⟩ := (bind_ok_iff _ _ _).1 e5
      cases e5; rfl
    cases e3; cases e6; cases e4; cases e2; cases h3
    simp [k1, k5]
  subst hw
  obtain ⟨st, h8⟩ := h7 rfl fun _ _ => ⟨_, rfl⟩
  exact ⟨choose, res, q, st, sv, h1, h3, h8, h5, (h6 st h8).2⟩

end Graphix
