import Verif.Proofs.Workflow
import Verif.Props.TotalRun

/-!
# Property C79: scripts of optimizations
-/

namespace Graphix

open Function

/-! ### Proofs -/

theorem Tidy.of_eq {p q : Pattern} (h : Tidy p) (h1 : q.inputs = p.inputs) (h2 : q.seq = p.seq) (h3 : q.outputs = p.outputs) : Tidy q := by
  obtain ⟨⟨a1, a2, a3⟩, b, c, d, e, f⟩ := h
  refine ⟨⟨by rw [h1]; exact a1, by rw [h3]; exact a2, fun n => by rw [h1, h2, h3]; exact a3 n⟩, ?_, by rw [h2]; exact c, by rw [h2]; exact d,
    by rw [h2]; exact e, by rw [h2]; exact f⟩
  rw [checkRunnability_iff] at b ⊢
  rw [h1, h2]; exact b

theorem Optimized.of_eq {p q q' : Pattern} {w : ℕ} {σ : Equiv.Perm ℕ} (h : Optimized p q w σ) (h1 : q'.inputs = q.inputs) (h2 : q'.seq = q.seq)
    (h3 : q'.outputs = q.outputs) : Optimized p q' w σ := by
  obtain ⟨a, b, c, d, e, f⟩ := h
  have hp : q'.preparedNodes = q.preparedNodes := by unfold Pattern.preparedNodes; rw [h2]
  exact ⟨by rw [h1]; exact a, b, by rw [h3]; exact c, by rw [hp]; exact d, by rw [h2]; exact e, by rw [hp, h2]; exact f⟩

theorem Absent.mono_prepared {s s' : Finset ℕ} (hs : s' ⊆ s) {ψ : QState} (h : Absent s ψ) : Absent s' ψ :=
  fun b b' hb => h b b' fun n hn => hb n fun hn' => hn (hs hn')

/-- Optimizing an optimized pattern. -/
theorem Optimized.trans {p q s : Pattern} {w w' : ℕ} {σ σ' : Equiv.Perm ℕ} (h : Optimized p q w σ) (h' : Optimized q s w' σ') :
    Optimized p s (w + w') (σ'.trans σ) := by
  refine ⟨h'.inputs.trans h.inputs, fun i hi => ?_, ?_, h'.prepared.trans h.prepared, fun n hn => h.measured _ (h'.measured n hn), fun r => ?_⟩
  · rw [Equiv.trans_apply, h'.fixed i (by rw [h.inputs]; exact hi), h.fixed i hi]
  · rw [← h.outputs, ← h'.outputs, List.map_map]; rfl
  · obtain ⟨r1, c', n', e'⟩ := h'.sem r
    obtain ⟨r0, c, n, e⟩ := h.sem r1
    refine ⟨r0, c * c', fun hw => ?_, fun ψ hψ => ?_⟩
    · rw [norm_mul, n (by omega), n' (by omega), ← pow_add]
      congr 1
      have h1 := Finset.card_le_card h.prepared
      have h2 := Finset.card_le_card h'.prepared
      omega
    · rw [e ψ hψ, e' ψ (hψ.mono_prepared h.prepared), ren_smul, smul_smul, ren_ren]

theorem preparedNodes_of_introduced {p q : Pattern} (hp : p.checkRunnability = .ok ()) (hi : p.inputs.Nodup) (hin : q.inputs = p.inputs)
    (hq : q.checkRunnability = .ok ()) (h : ∀ n, n ∈ introduced q.inputs q.seq ↔ n ∈ introduced p.inputs p.seq) :
    q.preparedNodes = p.preparedNodes := by
  have d1 := (List.nodup_append.1 (((checkRunnability_iff p).1 hp).introduced_nodup hi)).2.2
  have d2 := (List.nodup_append.1 (((checkRunnability_iff q).1 hq).introduced_nodup (by rw [hin]; exact hi))).2.2
  ext n
  unfold Pattern.preparedNodes
  rw [List.mem_toFinset, List.mem_toFinset]
  have hn := h n
  unfold introduced at hn
  rw [List.mem_append, List.mem_append] at hn
  constructor
  · intro hq'
    rcases hn.1 (Or.inr hq') with h' | h'
    · exact absurd rfl (d2 n (by rw [hin]; exact h') n hq')
    · exact h'
  · intro hp'
    rcases hn.2 (Or.inr hp') with h' | h'
    · exact absurd rfl (d1 n (by rw [← hin]; exact h') n hp')
    · exact h'

theorem optimized_of_same {p q : Pattern} (hp : Tidy p) (hin : q.inputs = p.inputs) (hout : q.outputs = p.outputs)
    (hprep : q.preparedNodes = p.preparedNodes) (hmeas : ∀ n ∈ measuredIn q.seq, n ∈ measuredIn p.seq)
    (hsem : ∀ r, ∃ r₀, OpPhaseEq (semCmds r₀ p.seq) (semCmds r q.seq)) : Optimized p q 0 1 := by
  refine ⟨hin, fun _ _ => rfl, ?_, by rw [hprep], hmeas, fun r => ?_⟩
  · rw [hout]; simp
  · obtain ⟨r₀, c, hc, e⟩ := hsem r
    refine ⟨r₀, c, fun _ => ?_, fun ψ _ => ?_⟩
    · rw [hc, hprep]; simp
    · rw [e ψ]; rfl

/-- A pattern whose commands are those of a tidy pattern up to measurements and domains. -/
theorem tidy_of_forall₂ {p q : Pattern} (hp : Tidy p) (hin : q.inputs = p.inputs) (hout : q.outputs = p.outputs) (hq : q.checkRunnability = .ok ())
    (h : List.Forall₂ (fun c c' => c'.actsOn = c.actsOn ∧ c'.prepared? = c.prepared? ∧ c'.measured? = c.measured? ∧
      (∀ n st, c' = .N n st → c = .N n st) ∧ (∀ u v, c' = .E u v → c = .E u v) ∧ (∀ n g, c' = .C n g → c = .C n g) ∧
      ∀ n d, c' = .S n d → c = .S n d) p.seq q.seq) :
    Tidy q ∧ measuredIn q.seq = measuredIn p.seq ∧ q.preparedNodes = p.preparedNodes := by
  have hpm : q.seq.filterMap Command.prepared? = p.seq.filterMap Command.prepared? ∧
      q.seq.filterMap Command.measured? = p.seq.filterMap Command.measured? := by
    generalize p.seq = l, q.seq = l' at h
    induction h with
    | nil => exact ⟨rfl, rfl⟩
    | cons hc _ ih => rw [List.filterMap_cons, List.filterMap_cons, List.filterMap_cons, List.filterMap_cons, hc.2.1, hc.2.2.1, ih.1, ih.2]; exact ⟨rfl, rfl⟩
  have hmem : ∀ c' ∈ q.seq, ∃ c ∈ p.seq, c'.actsOn = c.actsOn ∧ (∀ n st, c' = .N n st → c = .N n st) ∧ (∀ u v, c' = .E u v → c = .E u v) ∧
      (∀ n g, c' = .C n g → c = .C n g) ∧ ∀ n d, c' = .S n d → c = .S n d := by
    generalize p.seq = l, q.seq = l' at h
    induction h with
    | nil => simp
    | cons hc _ ih =>
      intro c' hc'
      rcases List.mem_cons.1 hc' with rfl | hc'
      · exact ⟨_, by simp, hc.1, hc.2.2.2⟩
      · obtain ⟨c, h1, h2⟩ := ih c' hc'
        exact ⟨c, by simp [h1], h2⟩
  refine ⟨⟨⟨by rw [hin]; exact hp.outputs.inputs_nodup, by rw [hout]; exact hp.outputs.outputs_nodup, fun n => ?_⟩, hq, ?_, ?_, ?_, ?_⟩, hpm.2, ?_⟩
  · rw [hout, hp.outputs.outputs n]
    unfold Live introduced measuredIn
    rw [hin, hpm.1, hpm.2]
  · intro n d hm
    obtain ⟨c, h1, -, -, -, -, h2⟩ := hmem _ hm
    exact hp.noSignal n d (h2 n d rfl ▸ h1)
  · intro u v hm
    obtain ⟨c, h1, -, -, h2, -⟩ := hmem _ hm
    exact hp.noLoop u v (h2 u v rfl ▸ h1)
  · intro n st hm
    obtain ⟨c, h1, -, h2, -⟩ := hmem _ hm
    exact hp.plus n st (h2 n st rfl ▸ h1)
  · have hl := hp.cliffords
    clear hpm
    unfold CliffordsLast at hl ⊢
    generalize p.seq = l, q.seq = l' at h hl hmem
    induction h with
    | nil => exact List.Pairwise.nil
    | @cons c c' l l' hc hl' ih =>
      obtain ⟨h1, h2⟩ := List.pairwise_cons.1 hl
      refine List.pairwise_cons.2 ⟨?_, ih h2 ?_⟩
      · intro x' hx' n g e
        have hc' := hc.2.2.2.2.2.1 n g e
        obtain ⟨i, hi, rfl⟩ := List.getElem_of_mem hx'
        have hlen := hl'.length_eq
        have := (List.forall₂_iff_get.1 hl').2 i (by omega) hi
        simp only [List.get_eq_getElem] at this
        rw [this.1]
        exact h1 _ (List.getElem_mem _) n g hc'
      · intro x' hx'
        obtain ⟨i, hi, rfl⟩ := List.getElem_of_mem hx'
        have hlen := hl'.length_eq
        have := (List.forall₂_iff_get.1 hl').2 i (by omega) hi
        simp only [List.get_eq_getElem] at this
        exact ⟨_, List.getElem_mem _, this.1, this.2.2.2⟩
  · unfold Pattern.preparedNodes; rw [hpm.1]

/-- The measurements are replaced. -/
theorem onMeas_step {p q : Pattern} (hp : Tidy p) (hin : q.inputs = p.inputs) (hout : q.outputs = p.outputs) {g : Measurement → Measurement}
    (hs : q.seq = p.seq.map (Command.onMeas g)) (hsem : ∀ r, OpPhaseEq (semCmds r q.seq) (semCmds r p.seq)) : Tidy q ∧ Optimized p q 0 1 := by
  have hrun : q.checkRunnability = .ok () := by
    have := hp.runnable
    simp only [Pattern.checkRunnability, hin, hs, onMeas_run] at this ⊢
    exact this
  obtain ⟨h1, h2, h3⟩ := tidy_of_forall₂ hp hin hout hrun (by
    rw [hs, List.forall₂_map_right_iff, List.forall₂_same]
    intro c _
    cases c <;> simp [Command.onMeas, Command.actsOn, Command.prepared?, Command.measured?])
  exact ⟨h1, optimized_of_same hp hin hout h3 (fun n hn => by rw [← h2]; exact hn) fun r => ⟨r, (hsem r).symm⟩⟩

/-! ### Each method -/

/-- The call succeeds; the result is tidy and does the computation of the pattern. -/
def CallDone (p : Pattern) (c : OptCall) : Prop := ∃ q w σ, c.run p = .ok (q, w) ∧ Tidy q ∧ Optimized p q w σ

theorem standardize_done {p : Pattern} (hp : Tidy p) (copy : Bool) {eo : GraphOrd} (ho : eo.Valid) : CallDone p (.standardize copy eo) := by
  obtain ⟨sp, h⟩ := hp.fromPattern
  have hw := fromPattern_wf hp.outputs hp.noLoop h
  obtain ⟨q, hq⟩ := hw.toPattern_ok _ (ho sp.eSet).1
  have hres : StandardizeResult p q := ⟨sp, h, _, (ho sp.eSet).1, hq⟩
  obtain ⟨-, c2, c3, c4, c5, c6, -⟩ := C12_standard_form p q hp.outputs.inputs_nodup hp.noLoop hres
  have hqt : Tidy q := tidy_of_std hw (fromPattern_plus hp.plus h) (ho sp.eSet).1 hq
  have hopt : Optimized p q 0 1 := optimized_of_same hp c3 c4
    (preparedNodes_of_introduced hp.runnable hp.outputs.inputs_nodup c3 c2 fun n => by rw [c5]) (fun n hn => by rw [← c6]; exact hn)
    fun r => ⟨r, (C11_standardize p q hp.noLoop hres r).1⟩
  have hrun : p.standardizeWith eo = .ok q := by
    simp only [Pattern.standardizeWith, h, bind, Except.bind, hq]
  cases copy
  · refine ⟨_, 0, 1, ?_, hqt.of_eq (q := { p with seq := q.seq }) c3.symm rfl c4.symm, hopt.of_eq c3.symm rfl c4.symm⟩
    simp only [OptCall.run, Pattern.standardizeInPlace, hrun, bind, Except.bind, pure, Except.pure, Bool.false_eq_true, if_false]
  · refine ⟨q, 0, 1, ?_, hqt, hopt⟩
    simp only [OptCall.run, hrun, bind, Except.bind, pure, Except.pure, if_true]

theorem shiftLoop_runnable (inputs : List ℕ) (l : List Command) : ∀ (pre pre' : List Command) (sig : SignalDict),
    introduced inputs pre' = introduced inputs pre → measuredIn pre' = measuredIn pre → SigInv (measuredIn pre).toFinset sig →
    Runnable inputs pre' → Runnable inputs (pre ++ l) → Runnable inputs (pre' ++ (Pattern.shiftLoop sig l).2) := by
  induction l with
  | nil => intro pre pre' sig _ _ _ h _; simpa [Pattern.shiftLoop] using h
  | cons c l ih =>
    intro pre pre' sig e1 e2 hs h hr
    have hal : Allowed inputs pre c := hr pre c l rfl
    have hal' : Allowed inputs pre' (Pattern.shiftStep sig c).2 := by
      refine Allowed.congr e1.symm e2.symm ?_
      have hexp : ∀ D : Finset ℕ, (∀ k ∈ D, k ∈ measuredIn pre) → ∀ k ∈ expandDomain sig D, k ∈ measuredIn pre := by
        intro D hD k hk
        have := expandDomain_subset sig D (measuredIn pre).toFinset (fun x hx => List.mem_toFinset.2 (hD x hx)) hs.sub hk
        exact List.mem_toFinset.1 this
      cases c with
      | M n m s t =>
        obtain ⟨h1, h2, h3⟩ := hal
        have h2' := hexp s h2
        have h3' := hexp t h3
        simp only [Pattern.shiftStep]
        cases m.toBloch.plane <;> simp only <;> split <;> refine ⟨h1, ?_, ?_⟩ <;> first | exact h2' | exact h3' | simp | skip
        intro k hk
        rcases Finset.mem_symmDiff.1 hk with ⟨hk, -⟩ | ⟨hk, -⟩
        · exact h3' k hk
        · exact h2' k hk
      | X n d => exact ⟨hal.1, hexp d hal.2⟩
      | Z n d => exact ⟨hal.1, hexp d hal.2⟩
      | _ => exact hal
    have hpm : (Pattern.shiftStep sig c).2.prepared? = c.prepared? ∧ (Pattern.shiftStep sig c).2.measured? = c.measured? := by
      cases c with
      | M n m s t =>
        simp only [Pattern.shiftStep]
        cases m.toBloch.plane <;> simp only <;> split <;> exact ⟨rfl, rfl⟩
      | _ => exact ⟨rfl, rfl⟩
    have hinv := (shiftStep_inv sig (measuredIn pre).toFinset hs c (fun n m s t hc => by
      subst hc
      exact ⟨fun k hk => List.mem_toFinset.2 (hal.2.1 k hk), fun k hk => List.mem_toFinset.2 (hal.2.2 k hk),
        fun hn => hal.1.2 (List.mem_toFinset.1 hn)⟩)).1
    have := ih (pre ++ [c]) (pre' ++ [(Pattern.shiftStep sig c).2]) (Pattern.shiftStep sig c).1 (by
      rw [introduced_append, introduced_append, e1]; simp [List.filterMap_cons, hpm.1]) (by
      rw [measuredIn_append, measuredIn_append, e2]; simp [List.filterMap_cons, hpm.2]) (by
      have e : (measuredIn (pre ++ [c])).toFinset = (measuredIn pre).toFinset ∪ c.measured?.toFinset := by
        rw [measuredIn_append]
        cases hc : c.measured? <;> simp [hc]
      rw [e]; exact hinv) (Runnable.append h fun a x b e => by
        rcases a with _ | ⟨y, a⟩
        · simp only [List.nil_append, List.cons.injEq] at e
          rw [List.append_nil, ← e.1]; exact hal'
        · simp at e) (by simpa using hr)
    simpa [Pattern.shiftLoop] using this

theorem shift_done {p : Pattern} (hp : Tidy p) : CallDone p .shiftSignals := by
  obtain ⟨-, h2, h3, h4⟩ := C13_shape p
  have hrun : p.shiftSignalsDirect.1.checkRunnability = .ok () := by
    rw [checkRunnability_iff, h3]
    have := shiftLoop_runnable p.inputs p.seq [] [] [] rfl rfl SigInv.empty (runnable_nil _) ((checkRunnability_iff p).1 hp.runnable)
    simpa [Pattern.shiftSignalsDirect] using this
  obtain ⟨t1, t2, t3⟩ := tidy_of_forall₂ hp h3 h4 hrun (h2.imp fun c c' h => by
    cases c <;> cases c' <;> simp_all [SameUpToDomains, Command.actsOn, Command.prepared?, Command.measured?])
  exact ⟨_, 0, 1, rfl, t1, optimized_of_same hp h3 h4 t3 (fun n hn => by rw [← t2]; exact hn)
    fun r => ⟨_, (C13_shift_signals p hp.runnable r).symm⟩⟩

theorem infer_done {p : Pattern} (hp : Tidy p) (copy : Bool) {rel abs' : ℝ} (ho : (OptCall.inferPauliMeasurements rel abs' copy).Ok p) :
    CallDone p (.inferPauliMeasurements rel abs' copy) := by
  obtain ⟨hr, ha, hex⟩ := ho
  obtain ⟨q, g, h1, h2, h3, h4, h5, -⟩ := C65_infer p copy (fun _ => ⟨hp.outputs, hp.runnable⟩) hr ha
  obtain ⟨t1, t2⟩ := onMeas_step hp h2 h3 h4 fun r => C65_same_meaning p q g h4 (fun n m s t hm => by
    have hs := h5 m
    cases m with
    | pauli m => simp only [InferSpec] at hs; rw [hs]
    | bloch m =>
      cases hg : g (.bloch m) with
      | bloch m' => rw [hg] at hs; simp only [InferSpec] at hs; rw [hs.1]
      | pauli m' =>
        rw [hg] at hs
        obtain ⟨k, k1, -, k3⟩ := hs
        have := hex n m s t hm k k1
        have hm' : (⟨k / 2, m.plane⟩ : BlochMeasurement) = m := by
          rw [← this]; cases m; simp
        rw [k3, hm']) r
  refine ⟨q, 0, 1, ?_, t1, t2⟩
  simp only [OptCall.run, h1, bind, Except.bind, pure, Except.pure]

theorem blochify_done {p : Pattern} (hp : Tidy p) (copy : Bool) : CallDone p (.blochify copy) := by
  obtain ⟨q, h1, h2, h3, -, h5, h6⟩ := C65_blochify p copy (fun _ => ⟨hp.outputs, hp.runnable⟩)
  have hs : q.seq = p.seq.map (Command.onMeas fun m => .bloch m.toBloch) := by
    generalize p.seq = l, q.seq = l' at h5
    induction h5 with
    | nil => rfl
    | cons h _ ih => rw [List.map_cons, h, ih]
  obtain ⟨t1, t2⟩ := onMeas_step hp h2 h3 hs h6
  refine ⟨q, 0, 1, ?_, t1, t2⟩
  simp only [OptCall.run, h1, bind, Except.bind, pure, Except.pure]

theorem useless_done {p : Pattern} (hp : Tidy p) : CallDone p .removeUselessDomains := by
  obtain ⟨q, h1, h2, h3, h4, h5, h6, h7, -⟩ := C16_remove_useless_domains p hp.outputs hp.runnable
  have hs : q.seq = p.seq.map uselessDomainsCmd := by
    have h := h1
    unfold removeUselessDomains Pattern.reorderOutputNodes at h
    obtain ⟨_, -, h⟩ := (bind_ok_iff _ _ _).1 h
    rw [← Except.ok.inj h]
    exact (C08_count p.inputs _).1
  obtain ⟨t1, t2, t3⟩ := tidy_of_forall₂ hp h4 h5 h2 (by
    rw [hs, List.forall₂_map_right_iff, List.forall₂_same]
    intro c _
    unfold uselessDomainsCmd
    split <;> simp [Command.actsOn, Command.prepared?, Command.measured?])
  refine ⟨q, 0, 1, ?_, t1, optimized_of_same hp h4 h5 t3 (fun n hn => by rw [← h6]; exact hn) fun r => ⟨r, (h7 r).symm⟩⟩
  simp only [OptCall.run, h1, bind, Except.bind, pure, Except.pure]

/-- What replaces a command: the command, or commands on its node that are neither preparations nor entangling nor Clifford nor signal commands. -/
def SplitOf (c : Command) (lc : List Command) : Prop :=
  lc = [c] ∨ ∀ x ∈ lc, (x.actsOn ⊆ c.actsOn ∧ x.prepared? = none ∧ (∀ u v, x ≠ .E u v) ∧ (∀ n g, x ≠ .C n g) ∧ (∀ n d, x ≠ .S n d)) ∧ c.prepared? = none

theorem singleQubitDomainsCmd_split (so tO : List ℕ) (c : Command) : SplitOf c (singleQubitDomainsCmd so tO c) := by
  have hd : ∀ (mk : ℕ → Finset ℕ → Command) n d o, mk = .X ∨ mk = .Z → ∀ x ∈ (decomposeDomain mk n d o).getD [],
      ∃ d', x = mk n d' := by
    intro mk n d o _ x hx
    unfold decomposeDomain at hx
    split at hx
    · simp at hx
    · simp only [Option.getD_some, List.mem_map] at hx
      obtain ⟨s, -, rfl⟩ := hx
      exact ⟨_, rfl⟩
  cases c with
  | M n m s t =>
    unfold singleQubitDomainsCmd
    dsimp only
    split
    · refine Or.inr fun x hx => ?_
      rw [List.mem_append, List.mem_append, List.mem_singleton] at hx
      rcases hx with (hx | hx) | rfl
      · obtain ⟨d', rfl⟩ := hd .X n s so (Or.inl rfl) x hx
        simp [Command.actsOn, Command.prepared?]
      · obtain ⟨d', rfl⟩ := hd .Z n t tO (Or.inr rfl) x hx
        simp [Command.actsOn, Command.prepared?]
      · simp [Command.actsOn, Command.prepared?]
    · exact Or.inl rfl
  | X n d =>
    unfold singleQubitDomainsCmd
    dsimp only
    cases he : decomposeDomain .X n d so with
    | none => exact Or.inl rfl
    | some l =>
      refine Or.inr fun x hx => ?_
      obtain ⟨d', rfl⟩ := hd .X n d so (Or.inl rfl) x (by rw [he]; exact hx)
      simp [Command.actsOn, Command.prepared?]
  | Z n d =>
    unfold singleQubitDomainsCmd
    dsimp only
    cases he : decomposeDomain .Z n d so with
    | none => exact Or.inl rfl
    | some l =>
      refine Or.inr fun x hx => ?_
      obtain ⟨d', rfl⟩ := hd .Z n d so (Or.inr rfl) x (by rw [he]; exact hx)
      simp [Command.actsOn, Command.prepared?]
  | _ => exact Or.inl rfl

theorem split_all (orders : ℕ → List ℕ × List ℕ) (l : List Command) : ∀ i,
    (∀ x ∈ singleQubitDomainsCmds orders i l, (x ∈ l ∨ ∃ c ∈ l, x.actsOn ⊆ c.actsOn ∧ x.prepared? = none ∧ (∀ u v, x ≠ .E u v) ∧
      (∀ n g, x ≠ .C n g) ∧ ∀ n d, x ≠ .S n d)) ∧
    (CliffordsLast l → CliffordsLast (singleQubitDomainsCmds orders i l)) := by
  induction l with
  | nil => intro i; exact ⟨by simp [singleQubitDomainsCmds], fun h => h⟩
  | cons c l ih =>
    intro i
    obtain ⟨h1, h2⟩ := ih (i + 1)
    have hsp := singleQubitDomainsCmd_split (orders i).1 (orders i).2 c
    refine ⟨fun x hx => ?_, fun hl => ?_⟩
    · simp only [singleQubitDomainsCmds, List.mem_append] at hx
      rcases hx with hx | hx
      · rcases hsp with hs | hs
        · rw [hs, List.mem_singleton] at hx
          exact Or.inl (by simp [hx])
        · exact Or.inr ⟨c, by simp, (hs x hx).1⟩
      · rcases h1 x hx with h | ⟨c', hc', h⟩
        · exact Or.inl (by simp [h])
        · exact Or.inr ⟨c', by simp [hc'], h⟩
    · obtain ⟨l1, l2⟩ := List.pairwise_cons.1 hl
      simp only [singleQubitDomainsCmds]
      rcases hsp with hs | hs
      · rw [hs]
        refine List.pairwise_cons.2 ⟨fun x hx n g e => ?_, h2 l2⟩
        rcases h1 x hx with h | ⟨c', hc', h, -⟩
        · exact l1 x h n g e
        · exact fun hn => l1 c' hc' n g e (h hn)
      · refine cliffordsLast_append (cliffordsLast_of_none fun n g hc => (hs _ hc).1.2.2.2.1 n g rfl) (h2 l2) fun n g hc => ?_
        exact absurd rfl ((hs _ hc).1.2.2.2.1 n g)

theorem single_done {p : Pattern} (hp : Tidy p) {orders : ℕ → List ℕ × List ℕ} (ho : IterationOrders orders 0 p.seq) :
    CallDone p (.singleQubitDomains orders) := by
  obtain ⟨q, h1, h2, h3, h4, h5, h6, h7, -⟩ := C16_single_qubit_domains p hp.outputs hp.runnable orders ho
  have hs : q.seq = singleQubitDomainsCmds orders 0 p.seq := by
    have h := h1
    unfold singleQubitDomains Pattern.reorderOutputNodes at h
    obtain ⟨_, -, h⟩ := (bind_ok_iff _ _ _).1 h
    rw [← Except.ok.inj h]
    exact (C08_count p.inputs _).1
  obtain ⟨a1, a2⟩ := split_all orders p.seq 0
  rw [← hs] at a1 a2
  have hprep : q.preparedNodes = p.preparedNodes := by
    unfold Pattern.preparedNodes
    have : ∀ (l : List Command) i, (singleQubitDomainsCmds orders i l).filterMap Command.prepared? = l.filterMap Command.prepared? := by
      intro l
      induction l with
      | nil => intro i; rfl
      | cons c l ih =>
        intro i
        simp only [singleQubitDomainsCmds, List.filterMap_append, ih]
        rcases singleQubitDomainsCmd_split (orders i).1 (orders i).2 c with h | h
        · rw [h, ← List.filterMap_append]; rfl
        · have e1 : (singleQubitDomainsCmd (orders i).1 (orders i).2 c).filterMap Command.prepared? = [] := by
            rw [List.filterMap_eq_nil_iff]; exact fun x hx => (h x hx).1.2.1
          rw [e1, List.nil_append]
          by_cases hc : c.prepared? = none
          · simp [List.filterMap_cons, hc]
          · exfalso
            cases c <;> simp [Command.prepared?, singleQubitDomainsCmd] at hc h
    rw [hs, this]
  refine ⟨q, 0, 1, ?_, ⟨h3, h2, ?_, ?_, ?_, a2 hp.cliffords⟩, optimized_of_same hp h4 h5 hprep (fun n hn => by rw [← h6]; exact hn)
    fun r => ⟨r, (h7 r).symm⟩⟩
  · simp only [OptCall.run, h1, bind, Except.bind, pure, Except.pure]
  · intro n d hm
    rcases a1 _ hm with h | ⟨_, -, -, -, -, -, h⟩
    · exact hp.noSignal n d h
    · exact h n d rfl
  · intro u v hm
    rcases a1 _ hm with h | ⟨_, -, -, -, h, -⟩
    · exact hp.noLoop u v h
    · exact absurd rfl (h u v)
  · intro n st hm
    rcases a1 _ hm with h | ⟨_, -, -, h, -⟩
    · exact hp.plus n st h
    · simp [Command.prepared?] at h

theorem pushing_done {p : Pattern} (hp : Tidy p) (leave : Finset ℕ) (copy std : Bool) {edges : Finset (Sym2 ℕ) → List (ℕ × ℕ)}
    {nbr : Finset (Sym2 ℕ) → ℕ → List ℕ} (he : EnumOrd.Valid edges) (hn : NbrOrd.Valid nbr) :
    CallDone p (.performPauliPushing leave copy std edges nbr) := by
  obtain ⟨sp, h⟩ := hp.fromPattern
  have hw := fromPattern_wf hp.outputs hp.noLoop h
  have hpl := fromPattern_plus hp.plus h
  obtain ⟨-, -, e1, e2⟩ := fromPattern_ok h
  obtain ⟨w1, w2, w3, w4, w5, -⟩ := C15_pauli_pushing sp hw leave
  have hpl' : ∀ n ∈ (sp.performPauliPushing leave).nList, n.2 = PlanarState.plus := by rw [w4]; exact hpl
  have main : ∃ q, (if std then p.performPauliPushingStd leave (edges sp.eSet) else p.performPauliPushing leave (nbr sp.eSet)) = .ok q ∧
      Tidy q ∧ q.inputs = p.inputs ∧ q.outputs = p.outputs ∧ PatternFor (sp.performPauliPushing leave) q ∧ Optimized p q 0 1 := by
    have key : ∀ q, Tidy q → PatternFor (sp.performPauliPushing leave) q → (measuredIn q.seq).Perm (measuredIn p.seq) →
        (∃ β : (ℕ → Bool) → (ℕ → Bool), Function.Bijective β ∧ ∀ r, OpPhaseEq (semCmds r q.seq) (semCmds (β r) p.seq)) →
        q.inputs = p.inputs → q.outputs = p.outputs → Optimized p q 0 1 := by
      intro q hq hf hm hs hi ho
      obtain ⟨β, -, hs⟩ := hs
      refine optimized_of_same hp hi ho (preparedNodes_of_introduced hp.runnable hp.outputs.inputs_nodup hi hq.runnable fun n => ?_)
        (fun n hn => hm.subset hn) fun r => ⟨β r, (hs r).symm⟩
      rw [hf.intro n, w2, w4, e1, ← List.mem_append, (fromPattern_inv hp.noLoop h).nl]; rfl
    cases std
    · obtain ⟨q, h1, h2, h3, h4, h5, -, h7⟩ := C15_pattern p hp.outputs hp.noLoop sp h leave (nbr sp.eSet) (hn sp.eSet)
      have hq := h1
      simp only [Pattern.performPauliPushing, h, bind, Except.bind] at hq
      have hb : NbrOk (sp.performPauliPushing leave).eSet (nbr sp.eSet) := by rw [w5]; exact hn _
      have ht := tidy_of_opt w1 hpl' hb hq
      obtain ⟨q', hq', hf⟩ := patternFor_spaceOptimal w1 hb
      obtain rfl := Except.ok.inj (hq.symm.trans hq')
      exact ⟨q, by simpa using h1, ht, h3, h4, hf, key q ht hf h5 h7 h3 h4⟩
    · obtain ⟨q, h1, h2, h3, h4, h5, -, -, h7⟩ := C15_pattern_standardized p hp.outputs hp.noLoop sp h leave (edges sp.eSet) (he sp.eSet)
      have hq := h1
      simp only [Pattern.performPauliPushingStd, h, bind, Except.bind] at hq
      have hb : StdPattern.Enumerates (edges sp.eSet) (sp.performPauliPushing leave).eSet := by rw [w5]; exact he _
      have ht := tidy_of_std w1 hpl' hb hq
      obtain ⟨q', hq', hf, -⟩ := patternFor_std w1 hb
      obtain rfl := Except.ok.inj (hq.symm.trans hq')
      exact ⟨q, by simpa using h1, ht, h3, h4, hf, key q ht hf h5 h7 h3 h4⟩
  obtain ⟨q, h1, ht, hi, ho, -, hopt⟩ := main
  refine ⟨if copy then q else { p with seq := q.seq }, 0, 1, ?_, ?_, ?_⟩
  · cases std <;> simp only [Bool.false_eq_true, if_true, if_false] at h1 <;>
      simp only [OptCall.run, h, bind, Except.bind, h1, pure, Except.pure, Bool.false_eq_true, if_true, if_false]
  · cases copy
    · exact ht.of_eq hi.symm rfl ho.symm
    · exact ht
  · cases copy
    · exact hopt.of_eq hi.symm rfl ho.symm
    · exact hopt

theorem removePauli_done {p : Pattern} (hp : Tidy p) (copy std : Bool) {order : Rpm → Finset ℕ → List ℕ} {edges : Finset (Sym2 ℕ) → List (ℕ × ℕ)}
    {nbr : Finset (Sym2 ℕ) → ℕ → List ℕ} (hord : ∀ p s x, x ∈ order p s ↔ x ∈ s) (he : EnumOrd.Valid edges) (hn : NbrOrd.Valid nbr) :
    CallDone p (.removePauliMeasurements copy std order edges nbr) := by
  obtain ⟨sp, h⟩ := hp.fromPattern
  have hw := fromPattern_wf hp.outputs hp.noLoop h
  have hpl := fromPattern_plus hp.plus h
  obtain ⟨q, k, σ, h1, h2, -⟩ := pattern_removed p hp.outputs hp.noLoop hp.plus sp h order hord (fun sp => nbr sp.eSet) (fun sp => hn sp.eSet)
    (fun sp => edges sp.eSet) (fun sp => he sp.eSet) std
  obtain ⟨sp', k', σ', g1, g2⟩ := C35_remove_pauli sp hw hpl ∅ order hord
  have hpl' : ∀ n ∈ sp'.nList, n.2 = PlanarState.plus := fun n hn => hpl n (g2.prepared.subset hn)
  have ht : Tidy q := by
    have hq := h1
    simp only [Pattern.removePauliMeasurements, h, g1, bind, Except.bind] at hq
    cases std
    · simp only [Bool.false_eq_true, if_false] at hq
      cases hq' : sp'.toSpaceOptimalPattern (nbr sp'.eSet) with
      | error e => rw [hq'] at hq; cases hq
      | ok q' => rw [hq'] at hq; cases hq; exact tidy_of_opt g2.wf hpl' (hn _) hq'
    · simp only [if_true] at hq
      cases hq' : sp'.toPattern (edges sp'.eSet) with
      | error e => rw [hq'] at hq; cases hq
      | ok q' => rw [hq'] at hq; cases hq; exact tidy_of_std g2.wf hpl' (he _) hq'
  have hopt : Optimized p q k σ := ⟨h2.inputs, h2.fixed, h2.outputs, h2.prepared, h2.measured, h2.sem⟩
  refine ⟨if copy then q else { p with seq := q.seq, outputs := q.outputs }, k, σ, ?_, ?_, ?_⟩
  · simp only [OptCall.run, h1, bind, Except.bind, pure, Except.pure]
  · cases copy
    · exact ht.of_eq h2.inputs.symm rfl rfl
    · exact ht
  · cases copy
    · exact hopt.of_eq h2.inputs.symm rfl rfl
    · exact hopt

theorem minimize_done {p : Pattern} (hp : Tidy p) (copy : Bool) {ord : SetOrd} {choose : (ℕ → ℕ) → Finset ℕ → ℕ} {edges : Finset (Sym2 ℕ) → List (ℕ × ℕ)}
    {nbr : Finset (Sym2 ℕ) → ℕ → List ℕ} (hord : ord.Valid) (hc : ChooseOk choose) (he : EnumOrd.Valid edges) (hn : NbrOrd.Valid nbr) :
    CallDone p (.minimizeSpace copy ord choose edges nbr) := by
  obtain ⟨sp, h⟩ := hp.fromPattern
  have hw := fromPattern_wf hp.outputs hp.noLoop h
  have hpl := fromPattern_plus hp.plus h
  obtain ⟨o, g1, g2⟩ := C20_greedy_valid sp hw choose hc
  have hcf := causalFlowHeuristic_spec hp.outputs hp.noLoop hp.plus h he hord
  have hord' := causalFlow_order hp.outputs hp.noLoop hp.plus h he hord
  have hv : Sound sp (defaultHeuristics edges ord choose) := by
    intro f hf
    simp only [defaultHeuristics, List.mem_cons, List.not_mem_nil, or_false] at hf
    rcases hf with rfl | rfl | rfl
    · rcases hcf with ⟨f, hf, h1⟩ | ⟨-, h1⟩
      · exact Or.inr ⟨_, _, h1, (hord' f hf).1⟩
      · exact Or.inl h1
    · exact Or.inr ⟨o, false, g1, g2⟩
    · exact Or.inr ⟨_, false, rfl, validOrder_unchanged _ hw⟩
  obtain ⟨t, q, ht, w1, w5, w3, n1, h1, h2, h3, -⟩ := minimize_general hp.outputs hp.noLoop h hn _ hv
  have hqt : Tidy q := by
    have hq := h1
    simp only [Pattern.minimizeSpaceCopy, h, ht, bind, Except.bind] at hq
    exact tidy_of_opt w1 (by rw [n1]; exact hpl) (hn _) hq
  have hopt : Optimized p q 0 1 := optimized_of_same hp h3.inputs h3.outputs
    (preparedNodes_of_introduced hp.runnable hp.outputs.inputs_nodup h3.inputs h3.runnable h3.nodes) (fun n hn => h3.measured.subset hn)
    fun r => ⟨r, h3.same r⟩
  cases copy
  · refine ⟨_, 0, 1, ?_, hqt.of_eq (q := { p with seq := q.seq }) h3.inputs.symm rfl h3.outputs.symm,
      hopt.of_eq h3.inputs.symm rfl h3.outputs.symm⟩
    simp only [OptCall.run, h2, bind, Except.bind, pure, Except.pure, Bool.false_eq_true, if_false]
  · refine ⟨q, 0, 1, ?_, hqt, hopt⟩
    simp only [OptCall.run, h1, bind, Except.bind, pure, Except.pure, if_true]

/-! ### C79 -/

/-- **C79** Each method that optimizes a pattern, called on a pattern as the library builds them with valid arguments (in place or not), succeeds;
its result does the computation of the pattern, and is again such a pattern. -/
theorem C79_call (p : Pattern) (hp : Tidy p) (c : OptCall) (hc : c.Ok p) :
    ∃ q w σ, c.run p = .ok (q, w) ∧ Tidy q ∧ Optimized p q w σ := by
  cases c with
  | standardize copy eo => exact standardize_done hp copy hc
  | shiftSignals => exact shift_done hp
  | inferPauliMeasurements rel abs' copy => exact infer_done hp copy hc
  | blochify copy => exact blochify_done hp copy
  | removeUselessDomains => exact useless_done hp
  | singleQubitDomains orders => exact single_done hp hc
  | performPauliPushing leave copy std edges nbr => exact pushing_done hp leave copy std hc.1 hc.2
  | removePauliMeasurements copy std order edges nbr => exact removePauli_done hp copy std hc.1 hc.2.1 hc.2.2
  | minimizeSpace copy ord choose edges nbr => exact minimize_done hp copy hc.1 hc.2.1 hc.2.2.1 hc.2.2.2

theorem Optimized.refl (p : Pattern) (hp : Tidy p) : Optimized p p 0 1 :=
  optimized_of_same hp rfl rfl rfl (fun _ h => h) fun r => ⟨r, OpPhaseEq.refl _⟩

/-- **C79** A script that calls the methods that optimize a pattern, in any order, any number of times, with valid arguments: no call fails, and the
pattern at the end does the computation of the pattern at the start. Each branch of the last pattern does what some branch of the first one does,
up to the renaming of nodes and a scalar; when no warning was given, the scalar accounts for the probability 1/2 of each measurement that was removed. -/
theorem C79_script (p : Pattern) (hp : Tidy p) (l : List OptCall) (hl : OptCall.AllOk p l) :
    ∃ q w σ, OptCall.runAll p l = .ok (q, w) ∧ Tidy q ∧ Optimized p q w σ := by
  induction l generalizing p with
  | nil => exact ⟨p, 0, 1, rfl, hp, Optimized.refl p hp⟩
  | cons c l ih =>
    obtain ⟨q, w, σ, h1, h2, h3⟩ := C79_call p hp c hl.1
    obtain ⟨q', w', σ', h4, h5, h6⟩ := ih q h2 (hl.2 q w h1)
    refine ⟨q', w + w', σ'.trans σ, ?_, h5, h3.trans h6⟩
    simp only [OptCall.runAll, h1, h4, bind, Except.bind, pure, Except.pure]

end Graphix
