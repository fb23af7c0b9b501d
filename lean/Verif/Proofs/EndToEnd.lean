import Verif.Props.CircSimDM
import Verif.Props.Swaps
import Verif.Props.SimHistory
import Verif.Props.BackendsAgree

/-!
# For C59: runs of a circuit and of a pattern that realizes it
-/

namespace Graphix

open Function

theorem enc_map (σ : ℕ → ℕ) (l : List ℕ) (b : Basis) : enc (l.map σ) b = enc l (b ∘ σ) := by
  induction l with
  | nil => rfl
  | cons n l ih => simp only [List.map_cons, enc, ih, List.length_map, comp]

theorem enc_map_surj {σ : ℕ → ℕ} {l : List ℕ} (hl : l.Nodup) (hσ : ∀ a ∈ l, ∀ b ∈ l, σ a = σ b → a = b) :
    ∀ i < 2 ^ l.length, ∃ b, enc l (b ∘ σ) = i := by
  intro i hi
  obtain ⟨b, hb⟩ := enc_surj (l := l.map σ) (hl.map_on hσ) i (by simpa using hi)
  exact ⟨b, by rw [← enc_map]; exact hb⟩

/-- Two normalised registers that describe proportional states are equal up to a phase. -/
theorem phase_of_prop {l : List ℕ} (hl : l.Nodup) {σ : ℕ → ℕ} (hσ : ∀ a ∈ l, ∀ b ∈ l, σ a = σ b → a = b) {psi psi' : ℕ → ℂ} {Φ : QState}
    {a k : ℂ} (hk : k ≠ 0) (h : absState (l.map σ) psi = a • fun b => Φ (b ∘ σ)) (h' : absState l psi' = k • Φ)
    (hn : normSq l.length psi = 1) (hn' : normSq l.length psi' = 1) :
    ∃ κ : ℂ, ‖κ‖ = 1 ∧ ∀ i < 2 ^ l.length, psi i = κ * psi' i := by
  have key : ∀ i < 2 ^ l.length, psi i = (a * k⁻¹) * psi' i := by
    intro i hi
    obtain ⟨b, rfl⟩ := enc_map_surj hl hσ i hi
    have h1 := congrFun h b
    have h2 := congrFun h' (b ∘ σ)
    simp only [absState, Pi.smul_apply, smul_eq_mul, enc_map] at h1 h2
    rw [h1, h2]
    field_simp
  refine ⟨a * k⁻¹, ?_, key⟩
  have e : normSq l.length psi = Complex.normSq (a * k⁻¹) * normSq l.length psi' := by
    unfold normSq
    rw [Finset.mul_sum]
    exact Finset.sum_congr rfl fun i hi => by rw [key i (Finset.mem_range.1 hi), Complex.normSq_mul]
  rw [hn, hn', mul_one] at e
  have : ‖a * k⁻¹‖ ^ 2 = 1 := by rw [← Complex.normSq_eq_norm_sq]; exact e.symm
  nlinarith [norm_nonneg (a * k⁻¹)]

theorem prodState_on : ∀ (ns : List ℕ) (l : List PlanarState), OnNodes ns (prodState ns l)
  | [], l => fun _ _ _ => by cases l <;> rfl
  | n :: ns, [] => fun _ _ _ => rfl
  | n :: ns, s :: l => fun b b' h => by
    simp only [prodState, prep]
    rw [h n (by simp), prodState_on ns l b b' (fun m hm => h m (by simp [hm]))]

theorem toState_on (ns : List ℕ) (data : InputData) : OnNodes ns (data.toState ns) := by
  cases data with
  | state s => exact prodState_on _ _
  | states l => exact prodState_on _ _
  | amplitudes l =>
    intro b b' h
    simp only [InputData.toState, enc_congr h]

/-! ### The qubits of the state of a circuit -/

theorem onNodes_update {l : List ℕ} {b b' : Basis} (h : ∀ n ∈ l, b n = b' n) (t : ℕ) {x y : Bool} (hxy : x = y) :
    ∀ n ∈ l, update b t x n = update b' t y n := by
  intro n hn
  by_cases hnt : n = t
  · subst hnt; simp [hxy]
  · rw [update_of_ne hnt, update_of_ne hnt, h n hn]

theorem OnNodes.op1' {l : List ℕ} {φ : QState} (h : OnNodes l φ) {t : ℕ} (ht : t ∈ l) (U : Mat2) : OnNodes l (Graphix.op1 U t φ) := by
  intro b b' hb
  simp only [Graphix.op1]
  rw [hb t ht, h _ _ (onNodes_update hb t rfl), h (update b t true) _ (onNodes_update hb t rfl)]

theorem OnNodes.gate {l : List ℕ} {φ : QState} (h : OnNodes l φ) {i : Instr} {s : Finset ℕ} (hok : Circuit.instrOk s i = true)
    (hs : ∀ n ∈ s, n ∈ l) : OnNodes l (i.gate φ) := by
  cases i <;> simp only [Circuit.instrOk, decide_eq_true_eq] at hok <;> simp only [Instr.gate]
  case CCX c0 c1 t =>
    intro b b' hb
    simp only [ccxOp]
    have h0 : c0 ∈ l := hs _ (by tauto)
    have h1 : c1 ∈ l := hs _ (by tauto)
    have h2 : t ∈ l := hs _ (by tauto)
    exact h _ _ (onNodes_update hb t (by rw [hb c0 h0, hb c1 h1, hb t h2]))
  case RZZ c t θ =>
    intro b b' hb
    simp only [rzzOp]
    have h0 : c ∈ l := hs _ (by tauto)
    have h2 : t ∈ l := hs _ (by tauto)
    rw [hb c h0, hb t h2, h _ _ hb]
  case CNOT c t =>
    intro b b' hb
    simp only [cnotOp]
    have h0 : c ∈ l := hs _ (by tauto)
    have h2 : t ∈ l := hs _ (by tauto)
    exact h _ _ (onNodes_update hb t (by rw [hb c h0, hb t h2]))
  case SWAP u v =>
    intro b b' hb
    simp only [swapOp]
    refine h _ _ fun n hn => ?_
    have h0 : u ∈ l := hs _ (by tauto)
    have h2 : v ∈ l := hs _ (by tauto)
    simp only [comp]
    by_cases hu : n = u
    · subst hu; rw [Equiv.swap_apply_left]; exact hb _ h2
    · by_cases hv : n = v
      · subst hv; rw [Equiv.swap_apply_right]; exact hb _ h0
      · rw [Equiv.swap_apply_of_ne_of_ne hu hv]; exact hb _ hn
  case CZ u v =>
    intro b b' hb
    simp only [Graphix.cz]
    have h0 : u ∈ l := hs _ (by tauto)
    have h2 : v ∈ l := hs _ (by tauto)
    rw [hb u h0, hb v h2, h _ _ hb]
  case I t => exact h
  case M t a => exact h
  all_goals exact h.op1' (hs _ hok) _

/-- The state of a circuit is a state of the qubits that are not measured. -/
theorem semInstrs_on (o : ℕ → Bool) (w : ℕ) {ψ : QState} (hψ : OnNodes (List.range w) ψ) : ∀ l : List Instr,
    Circuit.listOk (Finset.range w) l → OnNodes (circLive w l) (semInstrs o 0 l ψ) := by
  intro l
  induction l using List.reverseRecOn with
  | nil => intro _; rw [circLive_nil]; exact hψ
  | append_singleton l i ih =>
    intro hl
    rw [Circuit.listOk_append] at hl
    have ih := ih hl.1
    have hok : Circuit.instrOk (Circuit.afterList (Finset.range w) l) i = true := hl.2.1
    have hs : ∀ n ∈ Circuit.afterList (Finset.range w) l, n ∈ circLive w l := fun n hn => by
      rw [mem_afterList, Finset.mem_range] at hn; exact mem_circLive.2 hn
    rw [semInstrs_append]
    by_cases hg : i.isGate
    · rw [circLive_gate w l hg, semInstrs_cons_gate _ _ hg]
      exact ih.gate hok hs
    · cases i <;> first | exact absurd trivial hg | skip
      rename_i t a
      rw [circLive_M, semInstrs_cons_M]
      intro b b' hb
      simp only [semInstrs, projOut]
      have key : ∀ x, ∀ n ∈ circLive w l, update b t x n = update b' t x n := by
        intro x n hn
        by_cases hnt : n = t
        · subst hnt; simp
        · rw [update_of_ne hnt, update_of_ne hnt]
          exact hb n ((List.mem_erase_of_ne hnt).2 hn)
      rw [ih _ _ (key false), ih _ _ (key true)]

theorem circMeasured_nodup : ∀ {l : List Instr} {s : Finset ℕ}, Circuit.listOk s l → (circMeasured l).Nodup ∧ ∀ q ∈ circMeasured l, q ∈ s := by
  intro l
  induction l with
  | nil => intro s _; simp [circMeasured]
  | cons i l ih =>
    intro s h
    obtain ⟨h1, h2⟩ := ih h.2
    have hi := h.1
    cases i <;> simp only [circMeasured, List.filterMap_cons] at h1 h2 ⊢ <;> simp only [Instr.after] at h2
    case M t a =>
      simp only [Circuit.instrOk, decide_eq_true_eq] at hi
      refine ⟨List.nodup_cons.2 ⟨fun ht => ?_, h1⟩, fun q hq => ?_⟩
      · have := h2 t ht; simp at this
      · rcases List.mem_cons.1 hq with rfl | hq
        · exact hi
        · exact Finset.mem_of_mem_erase (h2 q hq)
    all_goals exact ⟨h1, h2⟩

/-! ### The pattern of a circuit -/

theorem enc_eq_of {l : List ℕ} (hl : l.Nodup) {b b' : Basis} (h : enc l b = enc l b') : ∀ n ∈ l, b n = b' n := by
  intro n hn
  obtain ⟨q, hq⟩ := List.getElem?_of_mem hn
  have h1 := testBit_enc' hq b
  have h2 := testBit_enc' hq b'
  rw [← h1, ← h2, h]

/-- A state of the nodes of a list is given by amplitudes. -/
theorem OnNodes.exists_abs {l : List ℕ} (hl : l.Nodup) {Φ : QState} (h : OnNodes l Φ) : ∃ psi, Φ = absState l psi := by
  classical
  refine ⟨fun i => if hi : ∃ b, enc l b = i then Φ hi.choose else 0, ?_⟩
  funext b
  have hi : ∃ b', enc l b' = enc l b := ⟨b, rfl⟩
  simp only [absState, hi, dite_true]
  exact h _ _ (fun n hn => (enc_eq_of hl hi.choose_spec n hn).symm)

theorem stateNormSq_rename {l : List ℕ} (hl : l.Nodup) {σ : ℕ → ℕ} (hσ : ∀ a ∈ l, ∀ b ∈ l, σ a = σ b → a = b) {Φ : QState}
    (h : OnNodes l Φ) : stateNormSq (l.map σ) (fun b => Φ (b ∘ σ)) = stateNormSq l Φ := by
  obtain ⟨psi, rfl⟩ := h.exists_abs hl
  have e : (fun b => absState l psi (b ∘ σ)) = absState (l.map σ) psi := by
    funext b; simp only [absState, enc_map]
  rw [e, stateNormSq_abs _ (hl.map_on hσ), stateNormSq_abs _ hl, List.length_map]

/-- What `transpile` guarantees (`C37`): the pattern `p` does what the circuit `c` does, `σ q` being the node that carries qubit `q`. -/
structure Realizes (c : Circuit) (p : Pattern) (σ : ℕ → ℕ) (k : ℕ) : Prop where
  ok : p.OutputsOk
  noS : ∀ n d, Command.S n d ∉ p.seq
  noLoop : NoSelfLoop p.seq
  run : p.checkRunnability = .ok ()
  inputs : p.inputs = List.range c.width
  inj : ∀ q < c.width, ∀ q' < c.width, σ q = σ q' → q = q'
  outputs : p.outputs = (circLive c.width c.instrs).map σ
  sem : ∀ r, OpPhaseEqOn (OnNodes (List.range c.width)) (semCmds r p.seq) fun ψ => (1 / (Real.sqrt 2 : ℂ)) ^ k •
    fun b => semInstrs (fun k => r (((circMeasured c.instrs).map σ).getD k 0)) 0 c.instrs ψ (b ∘ σ)

namespace Realizes

variable {c : Circuit} {p : Pattern} {σ : ℕ → ℕ} {k : ℕ}

theorem live_inj (h : Realizes c p σ k) : ∀ a ∈ circLive c.width c.instrs, ∀ b ∈ circLive c.width c.instrs, σ a = σ b → a = b :=
  fun a ha b hb => h.inj a (mem_circLive.1 ha).1 b (mem_circLive.1 hb).1

/-- The outcomes of the circuit in branch `r` of the pattern. -/
def outs (c : Circuit) (σ : ℕ → ℕ) (r : ℕ → Bool) : List Bool := (circMeasured c.instrs).map fun q => r (σ q)

theorem sem_outs (o : ℕ → Bool) (r : ℕ → Bool) (ψ : QState) (ho : ∀ j q, (circMeasured c.instrs)[j]? = some q → o j = r (σ q)) :
    semInstrs (fun k => r (((circMeasured c.instrs).map σ).getD k 0)) 0 c.instrs ψ = semInstrs o 0 c.instrs ψ := by
  refine semInstrs_congr _ _ _ 0 ψ fun j _ hj => ?_
  rw [zero_add] at hj
  rw [ho j _ (List.getElem?_eq_getElem hj)]
  simp [List.getD, hj]

theorem state (h : Realizes c p σ k) (r : ℕ → Bool) {ψ : QState} (hψ : OnNodes (List.range c.width) ψ) (o : ℕ → Bool)
    (ho : ∀ j q, (circMeasured c.instrs)[j]? = some q → o j = r (σ q)) :
    ∃ d : ℂ, ‖d‖ = 1 ∧ semCmds r p.seq ψ = (d * (1 / (Real.sqrt 2 : ℂ)) ^ k) • fun b => semInstrs o 0 c.instrs ψ (b ∘ σ) := by
  obtain ⟨d, hd, e⟩ := h.sem r
  refine ⟨d, hd, ?_⟩
  rw [e ψ hψ]
  dsimp only
  rw [sem_outs o r ψ ho, smul_smul]

/-- The probability of a branch of the pattern. -/
theorem prob (hc : c.Built) (h : Realizes c p σ k) (r : ℕ → Bool) {ψ : QState} (hψ : OnNodes (List.range c.width) ψ) (ms : List Bool)
    (ho : ∀ j q, (circMeasured c.instrs)[j]? = some q → outcomeOf ms j = r (σ q)) :
    (branchProb p.inputs ψ p.seq r : ℂ) = (1 / 2) ^ k * circProb c.width (ketBra ψ) c.instrs ms := by
  obtain ⟨d, hd, e⟩ := h.state r hψ (outcomeOf ms) ho
  have h1 : branchProb p.inputs ψ p.seq r = stateNormSq p.outputs (semCmds r p.seq ψ) :=
    stateNormSq_mem (nodup_liveList _ _) h.ok.outputs_nodup (fun n => by rw [mem_liveList, h.ok.outputs]) _
  rw [h1, e, stateNormSq_smul, h.outputs, stateNormSq_rename (circLive_nodup _ _) h.live_inj (semInstrs_on _ _ hψ _ hc.listOk.1),
    circProb_pure]
  have hs : Complex.normSq (d * (1 / (Real.sqrt 2 : ℂ)) ^ k) = (1 / 2) ^ k := by
    rw [Complex.normSq_eq_norm_sq, norm_mul, hd, one_mul, norm_pow, ← pow_mul, mul_comm k 2, pow_mul]
    congr 1
    rw [norm_div, norm_one, Complex.norm_real, Real.norm_of_nonneg (Real.sqrt_nonneg _), div_pow, Real.sq_sqrt (by norm_num)]
    norm_num
  rw [hs]
  push_cast
  rfl

/-- Runs of the pattern and of the circuit with the same outcomes end in the same state. -/
theorem runs_agree (hc : c.Built) (h : Realizes c p σ k) (env env' : SimEnv) (henv : env.Ok p.seq) (henv' : env'.Ok []) (data : InputData)
    (plusObj plusObj' : Bool) (hd : data.Ok c.width) (hplus : plusObj = true → data = .state PlanarState.plus)
    (hplus' : plusObj' = true → data = .state PlanarState.plus) (junk junk' : ℕ → Buf) (st : SimState) (sv : Statevector) (ms : List Bool)
    (h1 : simulate env p data plusObj junk = .ok st) (h2 : c.simulate env' data plusObj' junk' = .ok (sv, ms))
    (ho : ∀ j q, (circMeasured c.instrs)[j]? = some q → st.results.get? (σ q) = some (outcomeOf ms j)) :
    st.sv.nqubit = sv.nqubit ∧ normSq sv.nqubit st.sv.psi = 1 ∧ normSq sv.nqubit sv.psi = 1 ∧
      ∃ κ : ℂ, ‖κ‖ = 1 ∧ ∀ i < 2 ^ sv.nqubit, st.sv.psi i = κ * sv.psi i := by
  rcases C10_run env p henv h.ok h.run h.noS data plusObj (by rw [h.inputs]; simpa using hd) hplus junk with
    ⟨st', a1, -, -, a2, -, a3⟩ | ⟨e, a1, -⟩
  swap
  · rw [h1] at a1; cases a1
  obtain rfl := Except.ok.inj (h1.symm.trans a1)
  rcases C58_simulate c hc env' henv' data plusObj' hd hplus' junk' with ⟨sv', ms', b1, -, b2, b3, k', hk', -, b4⟩ | ⟨e, b1, -⟩
  swap
  · rw [h2] at b1; cases b1
  obtain ⟨rfl, rfl⟩ := Prod.mk.inj (Except.ok.inj (h2.symm.trans b1))
  obtain ⟨r, hr⟩ := exists_agrees st.results
  obtain ⟨-, c1, cc, c2⟩ := a3 r hr
  obtain ⟨d, hd1, e⟩ := h.state r (toState_on (List.range c.width) data) (outcomeOf ms) (fun j q hj => (hr _ _ (ho j q hj)).symm)
  rw [h.inputs, e, smul_smul, h.outputs] at c2
  have hn : normSq (circLive c.width c.instrs).length st.sv.psi = 1 := by
    rw [stateNormSq_abs _ h.ok.outputs_nodup, h.outputs, List.length_map] at c1; exact c1
  rw [b2] at b3 ⊢
  refine ⟨by rw [a2, h.outputs, List.length_map], hn, b3, ?_⟩
  exact phase_of_prop (circLive_nodup _ _) h.live_inj hk' c2 b4 hn b3

/-! ### Density matrices -/

/-- A density operator of the nodes of a list. -/
def DensOn (l : List ℕ) (ρ : QDens) : Prop := ∀ b b' c c' : Basis, (∀ n ∈ l, b n = c n) → (∀ n ∈ l, b' n = c' n) → ρ b b' = ρ c c'

theorem toDens_on (ns : List ℕ) (data : DMData) : DensOn ns (data.toDens ns) := by
  intro b b' c c' h h'
  cases data with
  | pure d => simp only [DMData.toDens, ketBra]; rw [toState_on ns d b c h, toState_on ns d b' c' h']
  | matrix _ m => simp only [DMData.toDens, absDens]; rw [enc_congr h, enc_congr h']
  | density m => simp only [DMData.toDens, absDens]; rw [enc_congr h, enc_congr h']

theorem densCmds_conj (chan : Noise → List (ℂ × (List Bool → List Bool → ℂ))) (r : ℕ → Bool) (seq : List Command) :
    ∀ {ρ : QDens}, IsMixture ρ → densCmds chan r r (seq.map .cmd) ρ = conjBy (semCmds r seq) ρ := by
  induction seq using List.reverseRecOn with
  | nil => intro ρ _; exact (conjBy_self ρ).symm
  | append_singleton seq cmd ih =>
    intro ρ hρ
    have hlin : Lin (semCmds r seq) := by
      clear ih
      induction seq using List.reverseRecOn with
      | nil => exact Lin.id
      | append_singleton seq c ih =>
        have e : semCmds r (seq ++ [c]) = fun ψ => c.sem r (semCmds r seq ψ) := by funext ψ; rw [semCmds_snoc]
        rw [e]; exact (Command.sem_lin r c).comp ih
    have e : semCmds r (seq ++ [cmd]) = fun ψ => cmd.sem r (semCmds r seq ψ) := by funext ψ; rw [semCmds_snoc]
    rw [List.map_append, densCmds_append, ih hρ, e, conjBy_comp (Command.sem_lin r cmd) hlin hρ]
    show conjBy (cmd.semRec r r) _ = _
    rw [Command.semRec_self]

/-- The density operator of a branch of the pattern. -/
theorem dens (h : Realizes c p σ k) (r : ℕ → Bool) {ρ : QDens} (hρ : DensOn (List.range c.width) ρ) (ms : List Bool)
    (ho : ∀ j q, (circMeasured c.instrs)[j]? = some q → outcomeOf ms j = r (σ q)) (b b' : Basis) :
    conjBy (semCmds r p.seq) ρ b b' = (1 / 2) ^ k * circDens ρ c.instrs ms (b ∘ σ) (b' ∘ σ) := by
  obtain ⟨d, hd, e⟩ := h.sem r
  set s : ℂ := d * (1 / (Real.sqrt 2 : ℂ)) ^ k with hs
  have e' : ∀ ψ, OnNodes (List.range c.width) ψ → ∀ b, semCmds r p.seq ψ b = s * semInstrs (outcomeOf ms) 0 c.instrs ψ (b ∘ σ) := by
    intro ψ hψ b
    rw [e ψ hψ]
    dsimp only
    rw [sem_outs (outcomeOf ms) r ψ ho, smul_smul]
    rfl
  have hom := (semInstrs_lin (outcomeOf ms) c.instrs 0).smul
  have hss : s * star s = (1 / 2) ^ k := by
    have hdd : d * star d = 1 := by
      have : d * star d = ((‖d‖ ^ 2 : ℝ) : ℂ) := by
        rw [← Complex.normSq_eq_norm_sq, Complex.normSq_eq_conj_mul_self, mul_comm]; rfl
      rw [this, hd]; simp
    have h2 : (1 / (Real.sqrt 2 : ℂ)) * star (1 / (Real.sqrt 2 : ℂ)) = 1 / 2 := by
      have : star (1 / (Real.sqrt 2 : ℂ)) = 1 / (Real.sqrt 2 : ℂ) := by simp [Complex.conj_ofReal]
      rw [this, div_mul_div_comm, one_mul, ← Complex.ofReal_mul, Real.mul_self_sqrt (by norm_num)]
      norm_num
    rw [hs, star_mul', star_pow]
    calc _ = (d * star d) * ((1 / (Real.sqrt 2 : ℂ)) * star (1 / (Real.sqrt 2 : ℂ))) ^ k := by rw [mul_pow]; ring
      _ = _ := by rw [hdd, h2, one_mul]
  unfold circDens conjBy rightBy leftBy
  have h1 : ∀ c', semCmds r p.seq (fun a => ρ a c') b = s * semInstrs (outcomeOf ms) 0 c.instrs (fun a => ρ a c') (b ∘ σ) :=
    fun c' => e' _ (fun x y hxy => hρ x c' y c' hxy (fun _ _ => rfl)) b
  simp only [h1]
  rw [e' _ (fun x y hxy => by
    have : (fun a => ρ a x) = fun a => ρ a y := by funext a; exact hρ a x a y (fun _ _ => rfl) hxy
    rw [this]) b']
  have h2 : (fun c' => star (s * semInstrs (outcomeOf ms) 0 c.instrs (fun a => ρ a c') (b ∘ σ))) =
      star s • fun c' => star (semInstrs (outcomeOf ms) 0 c.instrs (fun a => ρ a c') (b ∘ σ)) := by
    funext c'; rw [Pi.smul_apply, smul_eq_mul, star_mul']
  rw [h2, hom, Pi.smul_apply, smul_eq_mul, star_mul' s, star_mul' (star s), star_star, ← mul_assoc, mul_comm (star s), hss]

/-- Runs of the pattern and of the circuit on the density-matrix backend with the same outcomes end in the same density matrix. -/
theorem runs_agreeDM (hc : c.Built) (hp : ∀ i ∈ c.instrs, i.Proper) (h : Realizes c p σ k) (env env' : DMEnv) (data : DMData)
    (hd : data.Ok (List.range c.width)) (st : DMState) (dm : DensityMatrix) (ms : List Bool)
    (h1 : simulateDM env p none data = .ok st) (h2 : c.simulateDM env' data = .ok (dm, ms))
    (ho : ∀ j q, (circMeasured c.instrs)[j]? = some q → st.results.get? (σ q) = some (outcomeOf ms j)) :
    st.dm.rho.rows = dm.rho.rows ∧ st.dm.rho.cols = dm.rho.cols ∧
      ∀ i < dm.rho.rows, ∀ j < dm.rho.cols, st.dm.rho.entry i j = dm.rho.entry i j := by
  obtain ⟨seq, a0, a0', a1 | ⟨e, a1, -⟩⟩ := C57_library env p h.ok h.run h.noS (fun u hu => h.noLoop u u hu rfl) none (by simp) data
    (by rw [h.inputs]; exact hd)
  swap
  · rw [h1] at a1; cases a1
  obtain ⟨st', out, a1, -, -, a2, a3, a4, -, a5⟩ := a1
  obtain rfl := Except.ok.inj a0
  obtain rfl := Except.ok.inj (h1.symm.trans a1)
  rcases C58_simulateDM c hc hp env' data hd with ⟨dm', ms', b1, -, b2, b3, b4, b5⟩ | ⟨e, b1, -⟩
  swap
  · rw [h2] at b1; cases b1
  obtain ⟨rfl, rfl⟩ := Prod.mk.inj (Except.ok.inj (h2.symm.trans b1))
  obtain ⟨r, hr⟩ := exists_agrees st.results
  obtain ⟨pr, hpr, -, c2⟩ := a5 r hr
  have hro : ∀ n ∈ measuredIn (eraseNoise (p.seq.map .cmd)), out n = r n := by
    intro n hn
    refine (hr n (out n) ?_).symm
    rw [a4]; exact recordAll_none env.draw out _ n hn
  obtain ⟨-, -, hmix, -⟩ := circInputDM_ok env' c.width data hd
  rw [densCmds_congr env.chan r (out' := r) hro, h.inputs, densCmds_conj _ _ _ hmix] at c2
  have hdens := h.dens r (toDens_on (List.range c.width) data) ms (fun j q hj => (hr _ _ (ho j q hj)).symm)
  set l := circLive c.width c.instrs with hl
  have hlen : p.outputs.length = l.length := by rw [h.outputs, List.length_map]
  rw [hlen] at a2
  set P := circProb c.width (data.toDens (List.range c.width)) c.instrs ms with hP
  set α : ℂ := ((pr⁻¹ : ℝ) : ℂ) * (1 / 2) ^ k * P with hα
  have key : ∀ i < 2 ^ l.length, ∀ j < 2 ^ l.length, st.dm.rho.entry i j = α * dm.rho.entry i j := by
    intro i hi j hj
    obtain ⟨x, rfl⟩ := enc_map_surj (circLive_nodup _ _) h.live_inj i hi
    obtain ⟨y, rfl⟩ := enc_map_surj (circLive_nodup _ _) h.live_inj j hj
    have e1 := congrFun (congrFun c2 x) y
    have e2 := congrFun (congrFun b5 (x ∘ σ)) (y ∘ σ)
    rw [Pi.smul_apply, Pi.smul_apply, hdens] at e1
    rw [Pi.smul_apply, Pi.smul_apply] at e2
    simp only [absDens, h.outputs, enc_map, smul_eq_mul] at e1 e2
    rw [← hl] at e1
    rw [e1, e2, hα]
    field_simp
  have t1 : st.dm.rho.trace = 1 := by
    rw [← traceOn_absDens h.ok.outputs_nodup (by rw [hlen]; exact a2.1)]; exact a3.trace
  have t2 : dm.rho.trace = 1 := by
    rw [← traceOn_absDens (circLive_nodup _ _) b2.1]; exact b3.trace
  have hα1 : α = 1 := by
    have : st.dm.rho.trace = α * dm.rho.trace := by
      unfold NpMat.trace
      rw [a2.1, b2.1, Finset.mul_sum]
      exact Finset.sum_congr rfl fun i hi => key i (Finset.mem_range.1 hi) i (Finset.mem_range.1 hi)
    rw [t1, t2, mul_one] at this; exact this.symm
  refine ⟨by rw [a2.1, b2.1], by rw [a2.2, b2.2], fun i hi j hj => ?_⟩
  rw [b2.1] at hi; rw [b2.2] at hj
  rw [key i hi j hj, hα1, one_mul]

end Realizes

end Graphix
