import Verif.Props.DensitySim

/-!
# Property C57: runs of patterns on the density-matrix backend, with or without noise (the run)
-/

namespace Graphix

open NdArray

theorem runnableN_erase {env : DMEnv} {inputs : List ℕ} {seq : List CmdOrNoise} (h : RunnableN env inputs seq) :
    Runnable inputs (eraseNoise seq) := by
  intro pre c post he
  have key : ∀ (seq : List CmdOrNoise) (pre : List Command), eraseNoise seq = pre ++ c :: post →
      ∃ a b, seq = a ++ .cmd c :: b ∧ eraseNoise a = pre := by
    intro seq
    induction seq with
    | nil => intro pre h; simp [eraseNoise] at h
    | cons x seq ih =>
      intro pre h
      cases x with
      | noise a =>
        obtain ⟨l, l', rfl, rfl⟩ := ih pre h
        exact ⟨.noise a :: l, l', rfl, rfl⟩
      | cmd d =>
        have h' : d :: eraseNoise seq = pre ++ c :: post := h
        cases pre with
        | nil =>
          rw [List.nil_append, List.cons.injEq] at h'
          obtain ⟨rfl, -⟩ := h'
          exact ⟨[], seq, rfl, rfl⟩
        | cons e pre =>
          rw [List.cons_append, List.cons.injEq] at h'
          obtain ⟨rfl, h'⟩ := h'
          obtain ⟨l, l', rfl, rfl⟩ := ih pre h'
          exact ⟨.cmd d :: l, l', rfl, rfl⟩
  obtain ⟨a, b, rfl, rfl⟩ := key seq pre he
  exact (h a _ b rfl).1

theorem densCmds_snoc (chan : Noise → List (ℂ × (List Bool → List Bool → ℂ))) (rcd out : ℕ → Bool) (l : List CmdOrNoise)
    (c : CmdOrNoise) (ρ : QDens) : densCmds chan rcd out (l ++ [c]) ρ = c.dens chan rcd out (densCmds chan rcd out l ρ) := by
  rw [densCmds_append]; rfl

theorem krausN_smul (ch : List (ℂ × (List Bool → List Bool → ℂ))) (nodes : List ℕ) (c : ℂ) (ρ : QDens) :
    krausN ch nodes (c • ρ) = c • krausN ch nodes ρ := by
  unfold krausN
  rw [List.smul_sum, List.map_map]
  congr 1
  apply List.map_congr_left
  intro k _
  simp only [Function.comp]
  rw [conjBy_smul (Lin.opN _ _).smul, smul_comm]

theorem dens_smul (chan : Noise → List (ℂ × (List Bool → List Bool → ℂ))) (rcd out : ℕ → Bool) (x : CmdOrNoise) (c : ℂ) (ρ : QDens) :
    x.dens chan rcd out (c • ρ) = c • x.dens chan rcd out ρ := by
  cases x with
  | cmd d => exact conjBy_smul (Command.semRec_lin _ _ _).smul c ρ
  | noise a =>
    simp only [CmdOrNoise.dens]
    split
    · exact krausN_smul _ _ _ _
    · rfl

/-- A step that keeps the nodes and the outcomes. -/
theorem DMInv.keep {env : DMEnv} {confuse : Option ((ℕ → ℝ) → ℕ → Bool → Bool × ℕ)} {inputs : List ℕ} {ρ₀ : QDens}
    {pre : List CmdOrNoise} {out : ℕ → Bool} {st : DMState} (inv : DMInv env confuse inputs ρ₀ pre out st) {x : CmdOrNoise}
    (h1 : ∀ n, Live inputs (eraseNoise (pre ++ [x])) n ↔ Live inputs (eraseNoise pre) n)
    (h2 : measuredIn (eraseNoise (pre ++ [x])) = measuredIn (eraseNoise pre)) (dm' : DensityMatrix)
    (hs : dm'.Shape st.idx.list.length) (hd : IsDensity st.idx.list (absDens st.idx.list dm'.rho))
    (hsem : ∀ r, Agrees st.results r → absDens st.idx.list dm'.rho = x.dens env.chan r out (absDens st.idx.list st.dm.rho)) :
    DMInv env confuse inputs ρ₀ (pre ++ [x]) out { st with dm := dm' } := by
  refine ⟨inv.idx, fun n => by rw [inv.live, h1], hs, hd, by rw [h2]; exact inv.rcd, fun r hr => ?_⟩
  obtain ⟨c, hc, h⟩ := inv.sem r hr
  refine ⟨c, hc, ?_⟩
  show absDens st.idx.list dm'.rho = _
  rw [hsem r hr, h, dens_smul, densCmds_snoc]

theorem live_keep {inputs : List ℕ} {pre : List CmdOrNoise} {c : Command} (h1 : c.prepared? = none) (h2 : c.measured? = none) :
    (∀ n, Live inputs (eraseNoise (pre ++ [.cmd c])) n ↔ Live inputs (eraseNoise pre) n) ∧
      measuredIn (eraseNoise (pre ++ [.cmd c])) = measuredIn (eraseNoise pre) := by
  rw [eraseNoise_append, eraseNoise_cmd]
  exact ⟨fun n => (live_other h1 h2 n).1, by simp [measuredIn_append, h2]⟩

theorem applySingleDM_ok {env : DMEnv} {confuse : Option ((ℕ → ℝ) → ℕ → Bool → Bool × ℕ)} {inputs : List ℕ} {ρ₀ : QDens}
    {pre : List CmdOrNoise} {out : ℕ → Bool} {st : DMState} (inv : DMInv env confuse inputs ρ₀ pre out st) {n : ℕ}
    (hn : Live inputs (eraseNoise pre) n) (U : Mat2) (hU : U.conjTranspose * U = 1) :
    ∃ dm', st.applySingle n U = .ok { st with dm := dm' } ∧ dm'.Shape st.idx.list.length ∧
      IsDensity st.idx.list (absDens st.idx.list dm'.rho) ∧
      absDens st.idx.list dm'.rho = conjBy (op1 U n) (absDens st.idx.list st.dm.rho) := by
  have hmem := (inv.live n).2 hn
  obtain ⟨dm', h1, h2, h3⟩ := C56_evolve_single st.dm st.idx.list inv.idx.nodup inv.shape U _ n (List.getElem?_idxOf hmem)
  refine ⟨dm', ?_, h2, by rw [h3]; exact inv.dens.op1 hmem hU, h3⟩
  unfold DMState.applySingle
  rw [inv.idx.index_ok hmem]
  simp only [bind, Except.bind, h1]
  rfl

theorem conjBy_self (ρ : QDens) : conjBy (fun ψ => ψ) ρ = ρ := by
  funext b b'; simp [conjBy, rightBy, leftBy]

/-- Commands other than measurements, and noises, always succeed. -/
theorem dm_step_other {env : DMEnv} {confuse : Option ((ℕ → ℝ) → ℕ → Bool → Bool × ℕ)} {inputs : List ℕ} {ρ₀ : QDens}
    {pre : List CmdOrNoise} {out : ℕ → Bool} {st : DMState} (inv : DMInv env confuse inputs ρ₀ pre out st) {x : CmdOrNoise}
    (hsub : ∀ n ∈ measuredIn (eraseNoise pre), n ∈ introduced inputs (eraseNoise pre))
    (hal : AllowedN env inputs pre x) (hm : ∀ n m s t, x ≠ .cmd (.M n m s t)) :
    ∃ st', st.step env confuse x = .ok st' ∧ DMInv env confuse inputs ρ₀ (pre ++ [x]) out st' := by
  have pauli : ∀ (n : ℕ) (d : Finset ℕ) (U : Mat2), U.conjTranspose * U = 1 → Live inputs (eraseNoise pre) n →
      (∀ k ∈ d, k ∈ measuredIn (eraseNoise pre)) → ∀ c : Command, c.prepared? = none → c.measured? = none →
      (∀ r, c.semRec r out = op1 (powB U (parity r d)) n) →
      st.step env confuse (.cmd c) = (do
        if ← SimState.checkDomain st.results d then st.applySingle n U else return st) →
      ∃ st', st.step env confuse (.cmd c) = .ok st' ∧ DMInv env confuse inputs ρ₀ (pre ++ [.cmd c]) out st' := by
    intro n d U hU hn hd c h1 h2 hsem hstep
    obtain ⟨b, hb, hpar⟩ := checkDomain_ok (fun j hj => (inv.results j).2 (hd j hj))
    obtain ⟨l1, l2⟩ := live_keep (inputs := inputs) (pre := pre) h1 h2
    rw [hstep, hb]
    cases b with
    | true =>
      obtain ⟨dm', e1, e2, e3, e4⟩ := applySingleDM_ok inv hn U hU
      refine ⟨_, e1, inv.keep l1 l2 dm' e2 e3 (fun r hr => ?_)⟩
      rw [e4]
      show _ = conjBy (c.semRec r out) _
      rw [hsem, hpar r hr]; rfl
    | false =>
      refine ⟨st, rfl, inv.keep l1 l2 st.dm inv.shape inv.dens (fun r hr => ?_)⟩
      show _ = conjBy (c.semRec r out) _
      rw [hsem, hpar r hr]
      have : op1 (powB U false) n = fun ψ => ψ := by
        funext ψ; simp only [powB, Bool.false_eq_true, if_false, op1_one]
      rw [this, conjBy_self]
  cases x with
  | noise a =>
    obtain ⟨hnd, hlive, hdom, ch, hch, hgood⟩ := hal
    have hmem : ∀ n ∈ a.nodes, n ∈ st.idx.list := fun n hn => (inv.live n).2 (hlive n hn)
    have hchan : env.chan a.noise = NpChannel.kraus ch := by unfold DMEnv.chan; rw [hch]
    have hpos : (a.nodes.map (fun n => st.idx.list.idxOf n)).map (fun q => st.idx.list[q]?) = a.nodes.map some := by
      rw [List.map_map]
      exact List.map_congr_left (fun n hn => List.getElem?_idxOf (hmem n hn))
    obtain ⟨dm', e1, e2, e3, e4⟩ := C56_apply_channel st.dm st.idx.list inv.idx.nodup inv.shape inv.dens _ a.nodes hpos hnd ch
      hgood.shape hgood.complete
    have happ : st.applyNoise env a = .ok { st with dm := dm' } := by
      unfold DMState.applyNoise
      simp only [indices_ok inv.idx a.nodes hmem, hch, e1, bind, Except.bind]
      rfl
    have l1 : ∀ n, Live inputs (eraseNoise (pre ++ [.noise a])) n ↔ Live inputs (eraseNoise pre) n := by
      intro n; rw [eraseNoise_append, eraseNoise_noise, List.append_nil]
    have l2 : measuredIn (eraseNoise (pre ++ [.noise a])) = measuredIn (eraseNoise pre) := by
      rw [eraseNoise_append, eraseNoise_noise, List.append_nil]
    cases hda : a.domain with
    | none =>
      refine ⟨_, ?_, inv.keep l1 l2 dm' e2 e4 (fun r _ => ?_)⟩
      · simp only [DMState.step, hda]; exact happ
      · simp only [CmdOrNoise.dens, ApplyNoise.active, hda, if_true, hchan]; exact e3
    | some d =>
      obtain ⟨b, hb, hpar⟩ := checkDomain_ok (fun j hj => (inv.results j).2 (hdom d hda j hj))
      cases b with
      | true =>
        refine ⟨_, ?_, inv.keep l1 l2 dm' e2 e4 (fun r hr => ?_)⟩
        · simp only [DMState.step, hda, hb, bind, Except.bind, if_true]; exact happ
        · simp only [CmdOrNoise.dens, ApplyNoise.active, hda, hpar r hr, if_true, hchan]; exact e3
      | false =>
        refine ⟨st, ?_, inv.keep l1 l2 st.dm inv.shape inv.dens (fun r hr => ?_)⟩
        · simp only [DMState.step, hda, hb, bind, Except.bind, Bool.false_eq_true, if_false]; rfl
        · simp only [CmdOrNoise.dens, ApplyNoise.active, hda, hpar r hr, Bool.false_eq_true, if_false]
  | cmd c =>
    obtain ⟨hal, hS, hE⟩ := hal
    cases c with
    | M n m s t => exact absurd rfl (hm n m s t)
    | S n d => exact absurd rfl (hS n d)
    | T =>
      obtain ⟨l1, l2⟩ := live_keep (inputs := inputs) (pre := pre) (c := .T) rfl rfl
      refine ⟨st, rfl, inv.keep l1 l2 st.dm inv.shape inv.dens (fun r _ => ?_)⟩
      exact (conjBy_self _).symm
    | C n c =>
      obtain ⟨l1, l2⟩ := live_keep (inputs := inputs) (pre := pre) (c := .C n c) rfl rfl
      obtain ⟨dm', e1, e2, e3, e4⟩ := applySingleDM_ok inv hal c.matrix (Clifford.matrix_unitary c)
      exact ⟨_, e1, inv.keep l1 l2 dm' e2 e3 (fun r _ => e4)⟩
    | X n d => exact pauli n d Ops.X opsX_unitary hal.1 hal.2 _ rfl rfl (fun r => rfl) rfl
    | Z n d => exact pauli n d Ops.Z opsZ_unitary hal.1 hal.2 _ rfl rfl (fun r => rfl) rfl
    | E u v =>
      have huv : u ≠ v := by rintro rfl; exact hE u rfl
      have hu := (inv.live u).2 hal.1
      have hv := (inv.live v).2 hal.2
      obtain ⟨l1, l2⟩ := live_keep (inputs := inputs) (pre := pre) (c := .E u v) rfl rfl
      obtain ⟨⟨dm', e1, e2, e3⟩, -⟩ := C56_two_qubit st.dm st.idx.list inv.idx.nodup inv.shape _ _ u v
        (List.getElem?_idxOf hu) (List.getElem?_idxOf hv) huv
      refine ⟨{ st with dm := dm' }, ?_, inv.keep l1 l2 dm' e2 (by rw [e3]; exact inv.dens.cz huv hu hv) (fun r _ => e3)⟩
      simp only [DMState.step, DMState.entangleNodes, inv.idx.index_ok hu, inv.idx.index_ok hv, bind, Except.bind, e1]
      rfl
    | N n s =>
      have hfresh : n ∉ introduced inputs (eraseNoise pre) := hal
      have hnl : n ∉ st.idx.list := fun h => hfresh ((inv.live n).1 h).1
      have hnm : n ∉ measuredIn (eraseNoise pre) := fun h => hfresh (hsub n h)
      have hnd : (st.idx.list ++ [n]).Nodup := by
        rw [List.nodup_append]
        refine ⟨inv.idx.nodup, by simp, ?_⟩
        intro a ha b hb
        simp only [List.mem_singleton] at hb
        subst hb; rintro rfl; exact hnl ha
      obtain ⟨dm', e1, e2, e3⟩ := addNode_spec st.dm st.idx.list inv.shape n s
      have hvec : s.vec false * star (s.vec false) + s.vec true * star (s.vec true) = 1 := by
        have := vec_normSq s
        have e : ∀ z : ℂ, z * star z = ((Complex.normSq z : ℝ) : ℂ) := fun z => by
          rw [Complex.normSq_eq_conj_mul_self, mul_comm]; rfl
        rw [e, e, ← Complex.ofReal_add, this]; rfl
      have hind : ∀ b b' x y, absDens st.idx.list st.dm.rho (Function.update b n x) (Function.update b' n y) =
          absDens st.idx.list st.dm.rho b b' := by
        intro b b' x y; unfold absDens; rw [enc_update hnl, enc_update hnl]
      refine ⟨{ st with dm := dm', idx := st.idx.extend [n] }, ?_, ?_⟩
      · simp only [DMState.step, DMState.addNode, e1, bind, Except.bind]; rfl
      · refine ⟨inv.idx.extend hnd, fun k => ?_, e2, ⟨?_, ?_⟩, ?_, fun r hr => ?_⟩
        · rw [eraseNoise_append, eraseNoise_cmd]
          simp only [NodeIndex.extend, Live, introduced_append, measuredIn_append, Command.prepared?,
            Command.measured?, List.filterMap_cons, List.filterMap_nil, List.append_nil, List.mem_append,
            List.mem_singleton]
          rw [inv.live]
          unfold Live
          constructor
          · rintro (h | rfl)
            · exact ⟨Or.inl h.1, h.2⟩
            · exact ⟨Or.inr rfl, hnm⟩
          · rintro ⟨h | rfl, h2⟩
            · exact Or.inl ⟨h, h2⟩
            · exact Or.inr rfl
        · show IsMixture (absDens (st.idx.list ++ [n]) dm'.rho)
          rw [e3]; exact inv.dens.mixture.conjBy (Lin.prep n s.vec)
        · show traceOn (st.idx.list ++ [n]) (absDens (st.idx.list ++ [n]) dm'.rho) = 1
          rw [e3, traceOn_prep hnl hvec hind, inv.dens.trace]
        · rw [eraseNoise_append, eraseNoise_cmd]
          have : measuredIn (eraseNoise pre ++ [Command.N n s]) = measuredIn (eraseNoise pre) := by
            simp [measuredIn_append, Command.measured?]
          rw [this]; exact inv.rcd
        · obtain ⟨c, hc, h⟩ := inv.sem r hr
          refine ⟨c, hc, ?_⟩
          show absDens (st.idx.list ++ [n]) dm'.rho = _
          rw [e3, h, conjBy_smul (Lin.prep n s.vec).smul, densCmds_snoc]
          rfl

/-! ### The history of a run -/

theorem measuredIn_snocM (pre : List CmdOrNoise) (n : ℕ) (m : Measurement) (s t : Finset ℕ) :
    measuredIn (eraseNoise (pre ++ [.cmd (.M n m s t)])) = measuredIn (eraseNoise pre) ++ [n] := by
  rw [eraseNoise_append, measuredIn_append]; rfl

theorem noisyProb_congr (env : DMEnv) (inputs : List ℕ) (ρ₀ : QDens) {pre : List CmdOrNoise} (r : ℕ → Bool) {out out' : ℕ → Bool}
    (h : ∀ n ∈ measuredIn (eraseNoise pre), out n = out' n) :
    noisyProb env inputs ρ₀ pre r out = noisyProb env inputs ρ₀ pre r out' := by
  unfold noisyProb; rw [densCmds_congr env.chan r h]

/-- When node `n` is measured after `pre`, where the outcomes were `out`, the branch selector is asked with the outcomes recorded so
far and the probability of outcome 0 given the previous outcomes, and its answer is `x`. -/
def SelAnswers (env : DMEnv) (confuse : Option ((ℕ → ℝ) → ℕ → Bool → Bool × ℕ)) (inputs : List ℕ) (ρ₀ : QDens)
    (pre : List CmdOrNoise) (n : ℕ) (m : Measurement) (s t : Finset ℕ) (out : ℕ → Bool) (x : Except PyErr Bool) : Prop :=
  ∃ p0 : ℝ, 0 ≤ p0 ∧ p0 ≤ 1 ∧
    (∀ r, Agrees (recordAll confuse env.draw out (measuredIn (eraseNoise pre))).1 r → noisyProb env inputs ρ₀ pre r out ≠ 0 ∧
      ∀ o, noisyProb env inputs ρ₀ (pre ++ [.cmd (.M n m s t)]) r (Function.update out n o) =
        ((if o then 1 - p0 else p0 : ℝ) : ℂ) * noisyProb env inputs ρ₀ pre r out) ∧
    env.sel (recordAll confuse env.draw out (measuredIn (eraseNoise pre))).1 n p0 = x

/-- All the outcomes of the measurements in `l` are the answers of the branch selector. -/
def Chosen (env : DMEnv) (confuse : Option ((ℕ → ℝ) → ℕ → Bool → Bool × ℕ)) (inputs : List ℕ) (ρ₀ : QDens)
    (l : List CmdOrNoise) (out : ℕ → Bool) : Prop :=
  ∀ pre n m s t post, l = pre ++ .cmd (.M n m s t) :: post → SelAnswers env confuse inputs ρ₀ pre n m s t out (.ok (out n))

/-- How a run can fail: at some measurement, either the branch selector raised, or it chose an outcome that has probability zero given
the previous outcomes. -/
def FailsN (env : DMEnv) (confuse : Option ((ℕ → ℝ) → ℕ → Bool → Bool × ℕ)) (inputs : List ℕ) (ρ₀ : QDens)
    (seq : List CmdOrNoise) (e : PyErr) : Prop :=
  ∃ pre n m s t post out, seq = pre ++ .cmd (.M n m s t) :: post ∧ Chosen env confuse inputs ρ₀ pre out ∧
    (SelAnswers env confuse inputs ρ₀ pre n m s t out (.error e) ∨
      ∃ o, SelAnswers env confuse inputs ρ₀ pre n m s t out (.ok o) ∧ e = .zeroDivisionError ∧
        ∀ r, Agrees (recordAll confuse env.draw out (measuredIn (eraseNoise pre))).1 r →
          noisyProb env inputs ρ₀ (pre ++ [.cmd (.M n m s t)]) r (Function.update out n o) = 0)

theorem SelAnswers.congr {env : DMEnv} {confuse : Option ((ℕ → ℝ) → ℕ → Bool → Bool × ℕ)} {inputs : List ℕ} {ρ₀ : QDens}
    {pre : List CmdOrNoise} {n : ℕ} {m : Measurement} {s t : Finset ℕ} {out out' : ℕ → Bool} {x : Except PyErr Bool}
    (h : ∀ k ∈ measuredIn (eraseNoise pre), out k = out' k) (hs : SelAnswers env confuse inputs ρ₀ pre n m s t out x) :
    SelAnswers env confuse inputs ρ₀ pre n m s t out' x := by
  obtain ⟨p0, h0, h1, h2, h3⟩ := hs
  rw [recordAll_congr confuse env.draw h] at h2 h3
  refine ⟨p0, h0, h1, fun r hr => ?_, h3⟩
  obtain ⟨g1, g2⟩ := h2 r hr
  rw [← noisyProb_congr env inputs ρ₀ r h]
  refine ⟨g1, fun o => ?_⟩
  rw [← g2 o]
  apply noisyProb_congr
  intro k hk
  rw [measuredIn_snocM] at hk
  by_cases hkn : k = n
  · subst hkn; simp
  · rw [Function.update_of_ne hkn, Function.update_of_ne hkn]
    exact (h k (by simpa [hkn] using hk)).symm

theorem Chosen.snoc_other {env : DMEnv} {confuse : Option ((ℕ → ℝ) → ℕ → Bool → Bool × ℕ)} {inputs : List ℕ} {ρ₀ : QDens}
    {l : List CmdOrNoise} {out : ℕ → Bool} (h : Chosen env confuse inputs ρ₀ l out) {x : CmdOrNoise}
    (hm : ∀ n m s t, x ≠ .cmd (.M n m s t)) : Chosen env confuse inputs ρ₀ (l ++ [x]) out := by
  intro pre n m s t post he
  rcases List.eq_nil_or_concat post with rfl | ⟨post, y, rfl⟩
  · have := (List.append_inj' he rfl).2
    exact absurd (List.cons.inj this).1 (hm n m s t)
  · rw [List.concat_eq_append, ← List.cons_append, ← List.append_assoc] at he
    exact h pre n m s t post (List.append_inj' he rfl).1

theorem Chosen.snoc_M {env : DMEnv} {confuse : Option ((ℕ → ℝ) → ℕ → Bool → Bool × ℕ)} {inputs : List ℕ} {ρ₀ : QDens}
    {l : List CmdOrNoise} {out : ℕ → Bool} (h : Chosen env confuse inputs ρ₀ l out) {n : ℕ} {m : Measurement} {s t : Finset ℕ}
    {o : Bool} (hn : n ∉ measuredIn (eraseNoise l)) (hs : SelAnswers env confuse inputs ρ₀ l n m s t out (.ok o)) :
    Chosen env confuse inputs ρ₀ (l ++ [.cmd (.M n m s t)]) (Function.update out n o) := by
  have hup : ∀ k ∈ measuredIn (eraseNoise l), out k = Function.update out n o k := by
    intro k hk
    rw [Function.update_of_ne]
    rintro rfl; exact hn hk
  intro pre n' m' s' t' post he
  rcases List.eq_nil_or_concat post with rfl | ⟨post, y, rfl⟩
  · obtain ⟨rfl, h2⟩ := List.append_inj' he rfl
    have h3 := (List.cons.inj h2).1
    injection h3 with h3
    injection h3 with e1 e2 e3 e4
    subst e1 e2 e3 e4
    rw [Function.update_self]
    exact hs.congr hup
  · rw [List.concat_eq_append, ← List.cons_append, ← List.append_assoc] at he
    have hl := (List.append_inj' he rfl).1
    have h1 := h pre n' m' s' t' post hl
    have hk : ∀ k ∈ measuredIn (eraseNoise pre), k ∈ measuredIn (eraseNoise l) := by
      intro k hk
      rw [hl, eraseNoise_append, measuredIn_append]
      exact List.mem_append_left _ hk
    have hn' : n' ∈ measuredIn (eraseNoise l) := by
      rw [hl, show pre ++ CmdOrNoise.cmd (.M n' m' s' t') :: post = (pre ++ [.cmd (.M n' m' s' t')]) ++ post by simp,
        eraseNoise_append, measuredIn_append, measuredIn_snocM]
      simp
    rw [← hup n' hn']
    exact h1.congr (fun k h' => hup k (hk k h'))

theorem DMInv.prob_ne {env : DMEnv} {confuse : Option ((ℕ → ℝ) → ℕ → Bool → Bool × ℕ)} {inputs : List ℕ} {ρ₀ : QDens}
    {pre : List CmdOrNoise} {out : ℕ → Bool} {st : DMState} (inv : DMInv env confuse inputs ρ₀ pre out st) (r : ℕ → Bool)
    (hr : Agrees st.results r) : noisyProb env inputs ρ₀ pre r out ≠ 0 := by
  obtain ⟨c, hc, h⟩ := inv.sem r hr
  intro h0
  have h1 := inv.dens.trace
  rw [h, traceOn_smul, traceOn_mem (l' := liveList inputs (eraseNoise pre)) (fun k => by rw [mem_liveList, ← inv.live])] at h1
  unfold noisyProb at h0
  rw [h0, mul_zero] at h1
  exact zero_ne_one h1

theorem dm_loop_spec {env : DMEnv} {confuse : Option ((ℕ → ℝ) → ℕ → Bool → Bool × ℕ)} {inputs : List ℕ} {ρ₀ : QDens}
    {seq : List CmdOrNoise} (hrun : RunnableN env inputs seq) :
    ∀ (post pre : List CmdOrNoise) (st : DMState) (out : ℕ → Bool), seq = pre ++ post → DMInv env confuse inputs ρ₀ pre out st →
      Chosen env confuse inputs ρ₀ pre out →
      (∃ st' out', DMState.loop env confuse post st = .ok st' ∧ DMInv env confuse inputs ρ₀ seq out' st' ∧
        Chosen env confuse inputs ρ₀ seq out') ∨
      ∃ e, DMState.loop env confuse post st = .error e ∧ FailsN env confuse inputs ρ₀ seq e := by
  intro post
  induction post with
  | nil =>
    intro pre st out hseq inv hch
    left
    rw [List.append_nil] at hseq
    subst hseq
    exact ⟨st, out, rfl, inv, hch⟩
  | cons c post ih =>
    intro pre st out hseq inv hch
    have hal := hrun pre c post hseq
    have hsub : ∀ n ∈ measuredIn (eraseNoise pre), n ∈ introduced inputs (eraseNoise pre) := by
      have h1 := runnableN_erase hrun
      rw [hseq, eraseNoise_append] at h1
      exact h1.prefix.measured_sub
    have next : ∀ st' out', st.step env confuse c = .ok st' → DMInv env confuse inputs ρ₀ (pre ++ [c]) out' st' →
        Chosen env confuse inputs ρ₀ (pre ++ [c]) out' →
        (∃ st' out', DMState.loop env confuse (c :: post) st = .ok st' ∧ DMInv env confuse inputs ρ₀ seq out' st' ∧
          Chosen env confuse inputs ρ₀ seq out') ∨
        ∃ e, DMState.loop env confuse (c :: post) st = .error e ∧ FailsN env confuse inputs ρ₀ seq e := by
      intro st' out' h1 h2 h3
      have := ih (pre ++ [c]) st' out' (by rw [hseq]; simp) h2 h3
      simp only [DMState.loop, h1, bind, Except.bind]
      exact this
    by_cases hm : ∃ n m s t, c = .cmd (.M n m s t)
    · obtain ⟨n, m, s, t, rfl⟩ := hm
      have hnm : n ∉ measuredIn (eraseNoise pre) := hal.1.1.2
      obtain ⟨p0, hp0, hp1, hprob, h⟩ := dm_step_measure inv n m s t hal.1
      have hres : st.results = (recordAll confuse env.draw out (measuredIn (eraseNoise pre))).1 := by rw [← inv.rcd]
      have hans : ∀ x, env.sel st.results n p0 = x → SelAnswers env confuse inputs ρ₀ pre n m s t out x := by
        intro x hx
        rw [hres] at hx hprob
        exact ⟨p0, hp0, hp1, fun r hr => ⟨inv.prob_ne r (by rw [hres]; exact hr), fun o => hprob r o hr⟩, hx⟩
      rcases h with ⟨e, h1, h2⟩ | ⟨o, h1, ⟨h2, h3⟩ | ⟨st', h2, h3, -⟩⟩
      · right
        exact ⟨e, by simp only [DMState.loop, h2, bind, Except.bind], pre, n, m, s, t, post, out, hseq, hch, Or.inl (hans _ h1)⟩
      · right
        refine ⟨.zeroDivisionError, by simp only [DMState.loop, h2, bind, Except.bind], pre, n, m, s, t, post, out, hseq, hch,
          Or.inr ⟨o, hans _ h1, rfl, fun r hr => ?_⟩⟩
        rw [hprob r o (by rw [hres]; exact hr), h3]; simp
      · exact next st' _ h2 h3 (hch.snoc_M hnm (hans _ h1))
    · have hm' : ∀ n m s t, c ≠ .cmd (.M n m s t) := fun n m s t h => hm ⟨n, m, s, t, h⟩
      obtain ⟨st', h1, h2⟩ := dm_step_other inv hsub hal hm'
      exact next st' out h1 h2 (hch.snoc_other hm')

/-! ### Input data (specification) -/

/-- Data that describe a density matrix of the nodes `inputs`. A matrix given by rows must have complex entries. -/
def DMData.Ok (inputs : List ℕ) : DMData → Prop
  | .pure d => d.Ok inputs.length
  | .matrix c m => c = true ∧ m.rows = 2 ^ inputs.length ∧ m.cols = 2 ^ inputs.length ∧ IsDensity inputs (absDens inputs m)
  | .density m => m.rows = 2 ^ inputs.length ∧ m.cols = 2 ^ inputs.length ∧ IsDensity inputs (absDens inputs m)

/-- The density operator that the data describe: a pure state, or the matrix (first input: most significant bit). -/
noncomputable def DMData.toDens (inputs : List ℕ) : DMData → QDens
  | .pure d => ketBra (d.toState inputs)
  | .matrix _ m => absDens inputs m
  | .density m => absDens inputs m

theorem dm_start_ok (env : DMEnv) (confuse : Option ((ℕ → ℝ) → ℕ → Bool → Bool × ℕ)) (inputs : List ℕ) (hi : inputs.Nodup)
    (data : DMData) (hd : data.Ok inputs) :
    ∃ dm, initialDM.addNodes inputs.length data = .ok dm ∧ ∀ out,
      DMInv env confuse inputs (data.toDens inputs) [] out ⟨dm, NodeIndex.clear.extend inputs, [], 0⟩ := by
  have hidx : (NodeIndex.clear.extend inputs).Inv := NodeIndex.Inv.clear.extend (by simpa [NodeIndex.clear] using hi)
  have hlist : (NodeIndex.clear.extend inputs).list = inputs := by simp [NodeIndex.clear, NodeIndex.extend]
  have hinit : ∃ d, DensityMatrix.init data inputs.length = .ok d ∧ d.Shape inputs.length ∧
      absDens inputs d.rho = data.toDens inputs ∧ IsDensity inputs (data.toDens inputs) := by
    cases data with
    | pure d =>
      obtain ⟨dm, h1, h2, h3⟩ := init_pure (nodes := inputs) hd
      exact ⟨dm, h1, h2, h3, init_pure_density hi hd⟩
    | matrix c m =>
      obtain ⟨-, h1, h2, h3⟩ := hd
      obtain ⟨g1, g2, -⟩ := C56_init_matrix c m inputs hi
      exact ⟨⟨m⟩, g2 (g1.2 ⟨h1, h2, h3⟩), ⟨h1, h2⟩, rfl, h3⟩
    | density m =>
      obtain ⟨h1, h2, h3⟩ := hd
      refine ⟨⟨m⟩, ?_, ⟨h1, h2⟩, rfl, h3⟩
      unfold DensityMatrix.init
      simp [h1, h2]
  have hc : DensityMatrix.dataCplx data = true := by
    cases data with
    | pure d => rfl
    | matrix c m => exact hd.1
    | density m => rfl
  obtain ⟨d, h1, h2, h3, h4⟩ := hinit
  obtain ⟨dm', e1, e2, e3⟩ := C56_tensor initialDM d [] inputs ⟨rfl, rfl⟩ h2
  rw [List.nil_append] at e2 e3
  have e4 : absDens inputs dm'.rho = data.toDens inputs := by
    rw [e3, h3]; funext b b'; simp [absDens, initialDM, NpMat.outer]
  refine ⟨dm', ?_, fun out => ?_⟩
  · simp only [DensityMatrix.addNodes, h1, bind, Except.bind, hc, e1]
  · refine ⟨hidx, fun n => ?_, ?_, ?_, rfl, fun r _ => ⟨1, one_pos, ?_⟩⟩
    · rw [hlist]; simp [eraseNoise, Live, introduced, measuredIn]
    · simp only [hlist]; exact e2
    · simp only [hlist]; rw [e4]; exact h4
    · simp only [hlist]; rw [e4, densCmds_nil]; simp

/-- The outcome of a run that reaches the end: the register is the output nodes, in order; the state is a density matrix (Hermitian,
positive, trace 1); it is the state that the textbook semantics gives to the sequence `seq` of commands and noises in the branch where
the projections had the outcomes `out`, divided by the probability of that branch; every `out` is an answer of the branch selector;
the results are the `out`, confused by the noise model. -/
def RunsN (env : DMEnv) (confuse : Option ((ℕ → ℝ) → ℕ → Bool → Bool × ℕ)) (inputs outputs : List ℕ) (ρ₀ : QDens)
    (seq : List CmdOrNoise) (st : DMState) (out : ℕ → Bool) : Prop :=
  st.idx.list = outputs ∧ st.idx.Inv ∧ st.dm.Shape outputs.length ∧ IsDensity outputs (absDens outputs st.dm.rho) ∧
  st.results = (recordAll confuse env.draw out (measuredIn (eraseNoise seq))).1 ∧ Chosen env confuse inputs ρ₀ seq out ∧
  ∀ r, Agrees st.results r → ∃ pr : ℝ, 0 < pr ∧ traceOn outputs (densCmds env.chan r out seq ρ₀) = pr ∧
    absDens outputs st.dm.rho = ((pr⁻¹ : ℝ) : ℂ) • densCmds env.chan r out seq ρ₀

/-- **C57** Let the commands of a pattern, with the noise inserted by the noise model (if there is one), be `seq`: a sequence that is
runnable, without `S`, without `E` on twice the same node, and whose noises are trace preserving channels on live nodes. For every
branch selector and all random draws, the run on the density-matrix backend either reaches the end as `RunsN` says, or stops at a
measurement because the selector raised, or because it chose an outcome of probability zero. -/
theorem C57_run (env : DMEnv) (p : Pattern) (hp : p.OutputsOk) (noise : Option NoiseModel) (seq : List CmdOrNoise)
    (hseq : noisySequence p noise = .ok seq) (he : eraseNoise seq = p.seq) (hrun : RunnableN env p.inputs seq)
    (data : DMData) (hd : data.Ok p.inputs) :
    (∃ st out, simulateDM env p noise data = .ok st ∧
      RunsN env (noise.map (·.confuseResult)) p.inputs p.outputs (data.toDens p.inputs) seq st out) ∨
    ∃ e, simulateDM env p noise data = .error e ∧
      FailsN env (noise.map (·.confuseResult)) p.inputs (data.toDens p.inputs) seq e := by
  have hR : p.checkRunnability = .ok () := (checkRunnability_iff p).2 (he ▸ runnableN_erase hrun)
  obtain ⟨dm, hdm, hinv⟩ := dm_start_ok env (noise.map (·.confuseResult)) p.inputs hp.inputs_nodup data hd
  have hsim : simulateDM env p noise data = (do
      let st ← DMState.loop env (noise.map (·.confuseResult)) seq ⟨dm, NodeIndex.clear.extend p.inputs, [], 0⟩
      st.finalize p.outputs) := by
    unfold simulateDM
    simp only []
    rw [hdm, hseq, hR]
    rfl
  have hch0 : Chosen env (noise.map (·.confuseResult)) p.inputs (data.toDens p.inputs) [] (fun _ => false) := by
    intro pre n m s t post h; simp at h
  rcases dm_loop_spec hrun seq [] _ (fun _ => false) rfl (hinv _) hch0 with ⟨st, out, h1, h2, h3⟩ | ⟨e, h1, h2⟩
  · left
    have hmem : ∀ n, n ∈ p.outputs ↔ n ∈ st.idx.list := fun n => by rw [hp.outputs, h2.live, he]
    have hperm : p.outputs.Perm st.idx.list :=
      (List.perm_ext_iff_of_nodup hp.outputs_nodup h2.idx.nodup).2 hmem
    obtain ⟨dm', e1, e2, e3⟩ := C56_permute st.dm st.idx.list p.outputs h2.idx.nodup h2.shape hperm
    have hlist : (NodeIndex.clear.extend p.outputs).list = p.outputs := by simp [NodeIndex.clear, NodeIndex.extend]
    have hdens : IsDensity p.outputs (absDens p.outputs dm'.rho) := by
      rw [e3]; exact ⟨h2.dens.mixture, by rw [traceOn_perm hperm]; exact h2.dens.trace⟩
    refine ⟨⟨dm', NodeIndex.clear.extend p.outputs, st.results, st.draws⟩, out, ?_, hlist,
      NodeIndex.Inv.clear.extend (by simpa [NodeIndex.clear] using hp.outputs_nodup), e2, hdens, ?_, h3, fun r hr => ?_⟩
    · rw [hsim]
      simp only [h1, bind, Except.bind, DMState.finalize, indices_ok h2.idx p.outputs (fun n hn => (hmem n).1 hn), e1]
      rfl
    · show st.results = _
      rw [← h2.rcd]
    · obtain ⟨c, hc, hsem⟩ := h2.sem r hr
      have hc0 : (c : ℂ) ≠ 0 := by exact_mod_cast hc.ne'
      refine ⟨c⁻¹, inv_pos.2 hc, ?_, ?_⟩
      · have h4 := hdens.trace
        rw [e3, hsem, traceOn_smul] at h4
        push_cast
        exact eq_inv_of_mul_eq_one_right h4
      · rw [inv_inv]
        show absDens p.outputs dm'.rho = _
        rw [e3, hsem]
  · right
    refine ⟨e, ?_, h2⟩
    rw [hsim]
    simp only [h1, bind, Except.bind]

end Graphix
