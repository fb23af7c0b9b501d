import Verif.Props.DensityRun

/-!
# Property C57: the noise models of the library, noiseless runs
-/

namespace Graphix

/-- A command without `E` on twice the same node, or a noise that is a trace preserving channel on distinct nodes. -/
def CmdOrNoise.Good (env : DMEnv) : CmdOrNoise → Prop
  | .cmd c => ∀ u, c ≠ .E u u
  | .noise a => a.nodes.Nodup ∧ ∃ ch, a.noise.toKrausChannel env.user = .ok ch ∧ GoodChannel a.nodes.length ch

/-- A model that accepts all commands but signals, only inserts noise, and only trace preserving channels. -/
structure NoiseModel.Sound (env : DMEnv) (m : NoiseModel) : Prop where
  inserts : m.OnlyInserts
  total : ∀ c, (∀ n d, c ≠ .cmd (.S n d)) → ∃ out, m.command c = .ok out
  totalIn : ∀ nodes, ∃ out, m.inputNodes nodes = .ok out
  good : ∀ c out, m.command c = .ok out → c.Good env → ∀ x ∈ out, x.Good env
  goodIn : ∀ nodes out, m.inputNodes nodes = .ok out → ∀ x ∈ out, x.Good env

/-- Parameters that are probabilities. -/
structure NoiseModel.Params.Ok (p : NoiseModel.Params) : Prop where
  prepare : 0 ≤ p.prepareErrorProb ∧ p.prepareErrorProb ≤ 1
  x : 0 ≤ p.xErrorProb ∧ p.xErrorProb ≤ 1
  z : 0 ≤ p.zErrorProb ∧ p.zErrorProb ≤ 1
  entanglement : 0 ≤ p.entanglementErrorProb ∧ p.entanglementErrorProb ≤ 1
  measureChannel : 0 ≤ p.measureChannelProb ∧ p.measureChannelProb ≤ 1

theorem ofKind_sound (env : DMEnv) (one two : ℝ → Noise)
    (h1 : ∀ p, 0 ≤ p → p ≤ 1 → ∃ ch, (one p).toKrausChannel env.user = .ok ch ∧ GoodChannel 1 ch)
    (h2 : ∀ p, 0 ≤ p → p ≤ 1 → ∃ ch, (two p).toKrausChannel env.user = .ok ch ∧ GoodChannel 2 ch)
    (p : NoiseModel.Params) (hp : p.Ok) : (NoiseModel.ofKind one two p).Sound env where
  inserts := ofKind_onlyInserts one two p
  total := by
    intro c hc
    rcases c with c | a
    · cases c with
      | S n d => exact absurd rfl (hc n d)
      | _ => exact ⟨_, rfl⟩
    · exact ⟨_, rfl⟩
  totalIn := fun nodes => ⟨_, rfl⟩
  good := by
    intro c out h hg x hx
    rcases c with c | a
    · cases c with
      | N n s =>
        obtain rfl := Except.ok.inj h
        rcases List.mem_pair.1 hx with rfl | rfl
        · exact hg
        · exact ⟨by simp, h1 _ hp.prepare.1 hp.prepare.2⟩
      | E u v =>
        obtain rfl := Except.ok.inj h
        rcases List.mem_pair.1 hx with rfl | rfl
        · exact hg
        · refine ⟨?_, h2 _ hp.entanglement.1 hp.entanglement.2⟩
          have : u ≠ v := by rintro rfl; exact hg u rfl
          simp [this]
      | M n m s t =>
        obtain rfl := Except.ok.inj h
        rcases List.mem_pair.1 hx with rfl | rfl
        · exact ⟨by simp, h1 _ hp.measureChannel.1 hp.measureChannel.2⟩
        · exact hg
      | X n d =>
        obtain rfl := Except.ok.inj h
        rcases List.mem_pair.1 hx with rfl | rfl
        · exact hg
        · exact ⟨by simp, h1 _ hp.x.1 hp.x.2⟩
      | Z n d =>
        obtain rfl := Except.ok.inj h
        rcases List.mem_pair.1 hx with rfl | rfl
        · exact hg
        · exact ⟨by simp, h1 _ hp.z.1 hp.z.2⟩
      | C n c => obtain rfl := Except.ok.inj h; rw [List.mem_singleton.1 hx]; exact hg
      | T => obtain rfl := Except.ok.inj h; rw [List.mem_singleton.1 hx]; exact hg
      | S n d => cases h
    · obtain rfl := Except.ok.inj h; rw [List.mem_singleton.1 hx]; exact hg
  goodIn := by
    intro nodes out h x hx
    obtain rfl := Except.ok.inj h
    obtain ⟨n, -, rfl⟩ := List.mem_map.1 hx
    exact ⟨by simp, h1 _ hp.prepare.1 hp.prepare.2⟩

theorem depolarising_sound (env : DMEnv) (p : NoiseModel.Params) (hp : p.Ok) : (NoiseModel.depolarising p).Sound env :=
  ofKind_sound env _ _ (fun q h0 h1 => (C56_library_channels env.user q h0 h1 _ (by simp)))
    (fun q h0 h1 => (C56_library_channels env.user q h0 h1 _ (by simp))) p hp

theorem amplitudeDamping_sound (env : DMEnv) (p : NoiseModel.Params) (hp : p.Ok) : (NoiseModel.amplitudeDamping p).Sound env :=
  ofKind_sound env _ _ (fun q h0 h1 => (C56_library_channels env.user q h0 h1 _ (by simp)))
    (fun q h0 h1 => (C56_library_channels env.user q h0 h1 _ (by simp))) p hp

theorem noiseless_sound (env : DMEnv) : NoiseModel.noiseless.Sound env where
  inserts := C45_noiseless
  total := fun c _ => ⟨_, rfl⟩
  totalIn := fun nodes => ⟨_, rfl⟩
  good := by intro c out h hg x hx; obtain rfl := Except.ok.inj h; rw [List.mem_singleton.1 hx]; exact hg
  goodIn := by intro nodes out h x hx; obtain rfl := Except.ok.inj h; simp at hx

theorem inserts_no_signal {c : CmdOrNoise} {out : List CmdOrNoise} (h : Inserts c out) (hc : ∀ n d, c ≠ .cmd (.S n d)) :
    ∀ x ∈ out, ∀ n d, x ≠ .cmd (.S n d) := by
  obtain ⟨pre, post, rfl, h1, h2, -⟩ := h
  intro x hx n d
  rcases List.mem_append.1 hx with hx | hx
  · rcases List.mem_append.1 hx with hx | hx
    · obtain ⟨a, rfl, -⟩ := h1 x hx; simp
    · rw [List.mem_singleton] at hx; subst hx; exact hc n d
  · obtain ⟨a, rfl, -⟩ := h2 x hx; simp

/-- Transpiling through a sound model succeeds on sequences without signals, and gives such sequences. -/
theorem transpile_sound {env : DMEnv} {m : NoiseModel} (hm : m.Sound env) : ∀ l : List CmdOrNoise,
    (∀ x ∈ l, ∀ n d, x ≠ .cmd (.S n d)) → ∃ out, m.transpile l = .ok out ∧ (∀ x ∈ out, ∀ n d, x ≠ .cmd (.S n d)) ∧
      ((∀ x ∈ l, x.Good env) → ∀ x ∈ out, x.Good env)
  | [], _ => ⟨[], rfl, by simp, by simp⟩
  | c :: l, h => by
    obtain ⟨o, ho⟩ := hm.total c (h c (by simp))
    obtain ⟨rest, hr, h1, h2⟩ := transpile_sound hm l (fun x hx => h x (by simp [hx]))
    refine ⟨o ++ rest, by simp only [NoiseModel.transpile, ho, hr, bind, Except.bind]; rfl, ?_, ?_⟩
    · intro x hx
      rcases List.mem_append.1 hx with hx | hx
      · exact inserts_no_signal (hm.inserts.1 c o ho) (h c (by simp)) x hx
      · exact h1 x hx
    · intro hg x hx
      rcases List.mem_append.1 hx with hx | hx
      · exact hm.good c o ho (hg c (by simp)) x hx
      · exact h2 (fun y hy => hg y (by simp [hy])) x hx

theorem composeCommand_sound {env : DMEnv} : ∀ (ms : List NoiseModel) (l : List CmdOrNoise), (∀ m ∈ ms, m.Sound env) →
    (∀ x ∈ l, ∀ n d, x ≠ .cmd (.S n d)) → ∃ out, NoiseModel.composeCommand l ms = .ok out ∧
      ((∀ x ∈ l, x.Good env) → ∀ x ∈ out, x.Good env)
  | [], l, _, _ => ⟨l, rfl, fun h => h⟩
  | m :: ms, l, hm, hl => by
    obtain ⟨o, ho, h1, h2⟩ := transpile_sound (hm m (by simp)) l hl
    obtain ⟨out, h3, h4⟩ := composeCommand_sound ms o (fun m' hm' => hm m' (by simp [hm'])) h1
    exact ⟨out, by simp only [NoiseModel.composeCommand, ho, bind, Except.bind]; exact h3, fun hg => h4 (h2 hg)⟩

theorem transpile_good {env : DMEnv} {m : NoiseModel} (hm : m.Sound env) : ∀ l o : List CmdOrNoise, (∀ x ∈ l, x.Good env) →
    m.transpile l = .ok o → ∀ x ∈ o, x.Good env
  | [], o, _, h => by obtain rfl := Except.ok.inj h; simp
  | c :: l, o, hl, ho => by
    unfold NoiseModel.transpile at ho
    obtain ⟨a, ha, ho⟩ := (bind_ok_iff _ _ _).1 ho
    obtain ⟨b, hb, ho⟩ := (bind_ok_iff _ _ _).1 ho
    obtain rfl := Except.ok.inj ho
    intro x hx
    rcases List.mem_append.1 hx with hx | hx
    · exact hm.good c a ha (hl c (by simp)) x hx
    · exact transpile_good hm l b (fun y hy => hl y (by simp [hy])) hb x hx

theorem compose_sound (env : DMEnv) (ms : List NoiseModel) (hm : ∀ m ∈ ms, m.Sound env) : (NoiseModel.compose ms).Sound env where
  inserts := C45_compose ms (fun m h => (hm m h).inserts)
  total := by
    intro c hc
    obtain ⟨out, h, -⟩ := composeCommand_sound ms [c] hm (by simpa using hc)
    exact ⟨out, h⟩
  totalIn := by
    intro nodes
    show ∃ out, NoiseModel.composeInputNodes nodes ms = .ok out
    induction ms with
    | nil => exact ⟨_, rfl⟩
    | cons m ms ih =>
      obtain ⟨o, ho⟩ := (hm m (by simp)).totalIn nodes
      obtain ⟨o', ho'⟩ := ih (fun m' hm' => hm m' (by simp [hm']))
      exact ⟨o ++ o', by simp only [NoiseModel.composeInputNodes, ho, ho', bind, Except.bind]; rfl⟩
  good := by
    intro c out h hg
    by_cases hc : ∃ n d, c = .cmd (.S n d)
    · -- a signal is kept or refused: what is inserted is noise
      obtain ⟨n, d, rfl⟩ := hc
      have key : ∀ (ms : List NoiseModel) (l out : List CmdOrNoise), (∀ m ∈ ms, m.Sound env) → (∀ x ∈ l, x.Good env) →
          NoiseModel.composeCommand l ms = .ok out → ∀ x ∈ out, x.Good env := by
        intro ms
        induction ms with
        | nil => intro l out _ hl h; obtain rfl := Except.ok.inj h; exact hl
        | cons m ms ih =>
          intro l out hm hl h
          unfold NoiseModel.composeCommand at h
          obtain ⟨o, ho, h⟩ := (bind_ok_iff _ _ _).1 h
          exact ih o out (fun m' hm' => hm m' (by simp [hm'])) (transpile_good (hm m (by simp)) l o hl ho) h
      exact key ms _ out hm (by simpa using hg) h
    · obtain ⟨out', h', hg'⟩ := composeCommand_sound ms [c] hm (by
        intro x hx n d hxs; rw [List.mem_singleton] at hx; subst hx; exact hc ⟨n, d, hxs⟩)
      have : out' = out := Except.ok.inj (h'.symm.trans h)
      subst this
      exact hg' (by simpa using hg)
  goodIn := by
    intro nodes
    show ∀ out, NoiseModel.composeInputNodes nodes ms = .ok out → _
    induction ms with
    | nil => intro out h; obtain rfl := Except.ok.inj h; simp
    | cons m ms ih =>
      intro out h
      unfold NoiseModel.composeInputNodes at h
      obtain ⟨o, ho, h⟩ := (bind_ok_iff _ _ _).1 h
      obtain ⟨o', ho', h⟩ := (bind_ok_iff _ _ _).1 h
      obtain rfl := Except.ok.inj h
      intro x hx
      rcases List.mem_append.1 hx with hx | hx
      · exact (hm m (by simp)).goodIn nodes o ho x hx
      · exact ih (fun m' hm' => hm m' (by simp [hm'])) o' ho' x hx

/-- The noise models of the library: noiseless, depolarising and amplitude damping with probabilities as parameters, and their
compositions. -/
inductive LibraryModel : NoiseModel → Prop
  | noiseless : LibraryModel .noiseless
  | depolarising (p : NoiseModel.Params) (hp : p.Ok) : LibraryModel (.depolarising p)
  | amplitudeDamping (p : NoiseModel.Params) (hp : p.Ok) : LibraryModel (.amplitudeDamping p)
  | compose (ms : List NoiseModel) (h : ∀ m ∈ ms, LibraryModel m) : LibraryModel (.compose ms)

theorem LibraryModel.sound (env : DMEnv) {m : NoiseModel} (h : LibraryModel m) : m.Sound env := by
  induction h with
  | noiseless => exact noiseless_sound env
  | depolarising p hp => exact depolarising_sound env p hp
  | amplitudeDamping p hp => exact amplitudeDamping_sound env p hp
  | compose ms _ ih => exact compose_sound env ms ih

/-- The nodes of a command that is not a measurement are live after it. -/
theorem live_after {inputs : List ℕ} {pre : List Command} {c : Command} (hal : Allowed inputs pre c) (hS : ∀ n d, c ≠ .S n d)
    (hM : ∀ n m s t, c ≠ .M n m s t) (hsub : ∀ n ∈ measuredIn pre, n ∈ introduced inputs pre) :
    ∀ n ∈ (CmdOrNoise.cmd c).nodes, Live inputs (pre ++ [c]) n := by
  intro n hn
  cases c with
  | M k m s t => exact absurd rfl (hM k m s t)
  | S k d => exact absurd rfl (hS k d)
  | T => simp [CmdOrNoise.nodes] at hn
  | N k s =>
    have : n = k := by simpa [CmdOrNoise.nodes] using hn
    subst this
    have hf : n ∉ introduced inputs pre := hal
    refine ⟨by rw [introduced_append]; simp [Command.prepared?], ?_⟩
    rw [measuredIn_append]
    simpa [Command.measured?] using fun h => hf (hsub n h)
  | E u v =>
    rw [(live_other (c := .E u v) rfl rfl n).1]
    have : n = u ∨ n = v := by simpa [CmdOrNoise.nodes] using hn
    rcases this with rfl | rfl
    · exact hal.1
    · exact hal.2
  | C k c =>
    rw [(live_other (c := .C k c) rfl rfl n).1]
    have : n = k := by simpa [CmdOrNoise.nodes] using hn
    subst this; exact hal
  | X k d =>
    rw [(live_other (c := .X k d) rfl rfl n).1]
    have : n = k := by simpa [CmdOrNoise.nodes] using hn
    subst this; exact hal.1
  | Z k d =>
    rw [(live_other (c := .Z k d) rfl rfl n).1]
    have : n = k := by simpa [CmdOrNoise.nodes] using hn
    subst this; exact hal.1

theorem domain_measured {inputs : List ℕ} {pre : List Command} {c : Command} (hal : Allowed inputs pre c) {d : Finset ℕ}
    (h : (CmdOrNoise.cmd c).domain = some d) : ∀ k ∈ d, k ∈ measuredIn pre := by
  cases c with
  | X n d' => obtain rfl := Option.some.inj h; exact hal.2
  | Z n d' => obtain rfl := Option.some.inj h; exact hal.2
  | _ => simp [CmdOrNoise.domain] at h

theorem eraseNoise_nil {c : CmdOrNoise} {l : List CmdOrNoise} (h : ∀ x ∈ l, NoiseOn c x) : eraseNoise l = [] := by
  unfold eraseNoise
  rw [List.filterMap_eq_nil_iff]
  intro x hx
  obtain ⟨a, rfl, -⟩ := h x hx
  rfl

theorem cut_append {α : Type} {l1 l2 A B : List α} {x : α} (h : l1 ++ l2 = A ++ x :: B) :
    (∃ B', l1 = A ++ x :: B' ∧ B = B' ++ l2) ∨ ∃ A', A = l1 ++ A' ∧ l2 = A' ++ x :: B := by
  rcases List.append_eq_append_iff.1 h with ⟨C, h1, h2⟩ | ⟨C, h1, h2⟩
  · exact Or.inr ⟨C, h1, h2⟩
  · cases C with
    | nil =>
      right
      rw [List.append_nil] at h1
      rw [List.nil_append] at h2
      exact ⟨[], by simp [h1], by simp [h2]⟩
    | cons y C =>
      rw [List.cons_append] at h2
      obtain ⟨rfl, rfl⟩ := List.cons.inj h2
      exact Or.inl ⟨C, h1, rfl⟩

/-- Inserting good noise in a runnable sequence gives a runnable sequence. -/
theorem blocks_runnable {env : DMEnv} {inputs : List ℕ} : ∀ (seq : List Command) (blocks : List (List CmdOrNoise)),
    List.Forall₂ Inserts (seq.map .cmd) blocks → (∀ b ∈ blocks, ∀ x ∈ b, x.Good env) → ∀ A0 : List CmdOrNoise,
    Runnable inputs (eraseNoise A0 ++ seq) → (∀ n d, Command.S n d ∉ seq) →
    ∀ A x B, blocks.flatten = A ++ x :: B → AllowedN env inputs (A0 ++ A) x := by
  intro seq
  induction seq with
  | nil =>
    intro blocks hb _ A0 _ _ A x B he
    cases hb
    simp at he
  | cons c seq ih =>
    intro blocks hb hgood A0 hrun hS A x B he
    rw [List.map_cons] at hb
    cases hb with
    | @cons _ b _ blocks hi hbs =>
      have hal : Allowed inputs (eraseNoise A0) c := hrun _ c seq rfl
      have hsub : ∀ n ∈ measuredIn (eraseNoise A0), n ∈ introduced inputs (eraseNoise A0) := hrun.prefix.measured_sub
      have hcS : ∀ n d, c ≠ .S n d := fun n d h => hS n d (by rw [h]; simp)
      obtain ⟨pre, post, rfl, h1, h2, h3, h4⟩ := hi
      have hgb : ∀ x ∈ pre ++ [.cmd c] ++ post, x.Good env := hgood _ (by simp)
      have hnoise : ∀ (D : List CmdOrNoise) (y : CmdOrNoise), NoiseOn (.cmd c) y → y.Good env →
          (∀ n ∈ (CmdOrNoise.cmd c).nodes, Live inputs (eraseNoise D) n) →
          (∀ k ∈ measuredIn (eraseNoise A0), k ∈ measuredIn (eraseNoise D)) → AllowedN env inputs D y := by
        intro D y hy hg hl hmm
        obtain ⟨a, rfl, e1, e2⟩ := hy
        obtain ⟨g1, g2⟩ := hg
        refine ⟨g1, fun n hn => hl n (e2 n hn), fun d hd k hk => hmm k ?_, g2⟩
        exact domain_measured hal (e1.symm.trans hd) k hk
      have hperase : ∀ l l' : List CmdOrNoise, pre = l ++ l' → eraseNoise l = [] := fun l l' h =>
        eraseNoise_nil (c := .cmd c) (fun y hy => h1 y (by rw [h]; simp [hy]))
      have hposterase : ∀ l l' : List CmdOrNoise, post = l ++ l' → eraseNoise l = [] := fun l l' h =>
        eraseNoise_nil (c := .cmd c) (fun y hy => h2 y (by rw [h]; simp [hy]))
      rw [List.flatten_cons] at he
      rcases cut_append he with ⟨B', hB, -⟩ | ⟨A', rfl, hA⟩
      · rcases cut_append hB with ⟨B'', hB2, -⟩ | ⟨A'', rfl, hA2⟩
        · rcases cut_append hB2 with ⟨B3, hB3, -⟩ | ⟨A3, rfl, hA3⟩
          · -- in `pre`: the command is a measurement
            have hxp : x ∈ pre := by rw [hB3]; simp
            have hM : ∃ n m s t, c = .M n m s t := by
              by_contra hc
              have := h4 (fun n m s t h => hc ⟨n, m, s, t, by injection h⟩) (fun a h => by cases h)
              rw [this] at hxp; simp at hxp
            have heA : eraseNoise (A0 ++ A) = eraseNoise A0 := by
              rw [eraseNoise_append, hperase A _ hB3, List.append_nil]
            refine hnoise _ x (h1 x hxp) (hgb x (by simp [hxp])) ?_ (by rw [heA]; exact fun k hk => hk)
            obtain ⟨n, m, s, t, rfl⟩ := hM
            intro k hk
            have : k = n := by simpa [CmdOrNoise.nodes] using hk
            subst this
            rw [heA]; exact hal.1
          · -- the command
            have hA3' : A3 = [] ∧ x = .cmd c := by
              cases A3 with
              | nil => exact ⟨rfl, (List.cons.inj hA3).1.symm⟩
              | cons y A3 => simp at hA3
            obtain ⟨rfl, rfl⟩ := hA3'
            refine ⟨?_, hcS, hgb (.cmd c) (by simp)⟩
            rw [List.append_nil, eraseNoise_append, hperase pre [] (by simp), List.append_nil]
            exact hal
        · -- in `post`
          have hxp : x ∈ post := by rw [hA2]; simp
          have hM : ∀ n m s t, c ≠ .M n m s t := by
            rintro n m s t rfl
            rw [h3 ⟨n, m, s, t, rfl⟩] at hxp; simp at hxp
          have heA : eraseNoise (A0 ++ (pre ++ [.cmd c] ++ A'')) = eraseNoise A0 ++ [c] := by
            rw [eraseNoise_append, eraseNoise_append, eraseNoise_append, hperase pre [] (by simp), hposterase A'' _ hA2,
              eraseNoise_cmd]
            simp
          refine hnoise _ x (h2 x hxp) (hgb x (by simp [hxp])) ?_ ?_
          · rw [heA]; exact live_after hal hcS hM hsub
          · rw [heA, measuredIn_append]; exact fun k hk => List.mem_append_left _ hk
      · have hrest := ih blocks hbs (fun b hb => hgood b (by simp [hb])) (A0 ++ (pre ++ [.cmd c] ++ post)) (by
          rw [eraseNoise_append, eraseNoise_append, eraseNoise_append, hperase pre [] (by simp),
            hposterase post [] (by simp), eraseNoise_cmd]
          simpa using hrun) (fun n d h => hS n d (by simp [h])) A' x B hA
        rw [List.append_assoc A0] at hrest
        exact hrest

theorem forall₂_mem_right {α β : Type} {R : α → β → Prop} {l : List α} {l' : List β} (h : List.Forall₂ R l l') :
    ∀ b ∈ l', ∃ a ∈ l, R a b := by
  induction h with
  | nil => simp
  | cons h _ ih =>
    intro b hb
    rcases List.mem_cons.1 hb with rfl | hb
    · exact ⟨_, by simp, h⟩
    · obtain ⟨a, ha, hr⟩ := ih b hb
      exact ⟨a, by simp [ha], hr⟩

/-- **C57** With a noise model of the library (or none), the sequence that is simulated for a runnable pattern without `S` and
without `E` on twice the same node is the pattern's, with noise inserted, and can be run. -/
theorem C57_sequence (env : DMEnv) (p : Pattern) (hrun : p.checkRunnability = .ok ()) (hS : ∀ n d, Command.S n d ∉ p.seq)
    (hE : ∀ u, Command.E u u ∉ p.seq) (noise : Option NoiseModel) (hn : ∀ m, noise = some m → m.Sound env) :
    ∃ seq, noisySequence p noise = .ok seq ∧ eraseNoise seq = p.seq ∧ RunnableN env p.inputs seq := by
  have hR := (checkRunnability_iff p).1 hrun
  have hid : ∀ l : List Command, eraseNoise (l.map .cmd) = l := by
    intro l; induction l with
    | nil => rfl
    | cons a l ih => show a :: eraseNoise (l.map .cmd) = _; rw [ih]
  have hgood0 : ∀ x ∈ p.seq.map CmdOrNoise.cmd, x.Good env := by
    intro x hx
    obtain ⟨c, hc, rfl⟩ := List.mem_map.1 hx
    intro u h; subst h; exact hE u hc
  cases noise with
  | none =>
    refine ⟨_, rfl, hid _, ?_⟩
    intro A x B he
    have hf : List.Forall₂ Inserts (p.seq.map CmdOrNoise.cmd) (p.seq.map fun c => [CmdOrNoise.cmd c]) := by
      generalize p.seq = l
      induction l with
      | nil => exact .nil
      | cons a l ih => exact .cons (inserts_self _) ih
    have := blocks_runnable (env := env) (inputs := p.inputs) p.seq _ hf (by
      intro b hb x hx
      obtain ⟨c, hc, rfl⟩ := List.mem_map.1 hb
      rw [List.mem_singleton] at hx; subst hx
      exact hgood0 _ (List.mem_map_of_mem hc)) [] (by simpa [eraseNoise] using hR) hS A x B (by
        rw [← he]
        generalize p.seq = l
        induction l with
        | nil => rfl
        | cons a l ih => simp [ih])
    simpa using this
  | some m =>
    have hm := hn m rfl
    obtain ⟨pre, hpre⟩ := hm.totalIn p.inputs
    obtain ⟨rest, hrest, -, hg⟩ := transpile_sound hm (p.seq.map .cmd) (by
      intro x hx n d
      obtain ⟨c, hc, rfl⟩ := List.mem_map.1 hx
      intro h; injection h with h; subst h; exact hS n d hc)
    obtain ⟨⟨blocks, rfl, hf⟩, he⟩ := C45_transpile m hm.inserts _ _ hrest
    have hpn := hm.inserts.2 _ _ hpre
    have hpe : ∀ l, (∀ x ∈ l, ∃ a, x = CmdOrNoise.noise a ∧ a.domain = none ∧ ∀ n ∈ a.nodes, n ∈ p.inputs) →
        eraseNoise l = [] := by
      intro l hl
      unfold eraseNoise
      rw [List.filterMap_eq_nil_iff]
      intro x hx
      obtain ⟨a, rfl, -⟩ := hl x hx
      rfl
    refine ⟨pre ++ blocks.flatten, by simp only [noisySequence, hpre, hrest, bind, Except.bind]; rfl, ?_, ?_⟩
    · rw [eraseNoise_append, hpe pre hpn, he, hid, List.nil_append]
    · intro A x B hcut
      rcases cut_append hcut with ⟨B', hB, -⟩ | ⟨A', rfl, hA⟩
      · have hxp : x ∈ pre := by rw [hB]; simp
        obtain ⟨a, rfl, h1, h2⟩ := hpn x hxp
        obtain ⟨g1, g2⟩ := hm.goodIn _ _ hpre _ hxp
        refine ⟨g1, fun n hn => ?_, fun d hd => (by rw [h1] at hd; cases hd), g2⟩
        rw [hpe A (fun y hy => hpn y (by rw [hB]; simp [hy]))]
        refine ⟨?_, by simp [measuredIn]⟩
        simpa [introduced] using h2 n hn
      · exact blocks_runnable p.seq blocks hf (by
          intro b hb x hx
          exact hg hgood0 x (List.mem_flatten.2 ⟨b, hb, hx⟩)) pre (by rw [hpe pre hpn]; simpa using hR) hS A' x B hA

/-- **C57** The runs with the noise models of the library. -/
theorem C57_library (env : DMEnv) (p : Pattern) (hp : p.OutputsOk) (hrun : p.checkRunnability = .ok ())
    (hS : ∀ n d, Command.S n d ∉ p.seq) (hE : ∀ u, Command.E u u ∉ p.seq) (noise : Option NoiseModel)
    (hn : ∀ m, noise = some m → LibraryModel m) (data : DMData) (hd : data.Ok p.inputs) :
    ∃ seq, noisySequence p noise = .ok seq ∧ eraseNoise seq = p.seq ∧
      ((∃ st out, simulateDM env p noise data = .ok st ∧
        RunsN env (noise.map (·.confuseResult)) p.inputs p.outputs (data.toDens p.inputs) seq st out) ∨
      ∃ e, simulateDM env p noise data = .error e ∧
        FailsN env (noise.map (·.confuseResult)) p.inputs (data.toDens p.inputs) seq e) := by
  obtain ⟨seq, h1, h2, h3⟩ := C57_sequence env p hrun hS hE noise (fun m hm => (hn m hm).sound env)
  exact ⟨seq, h1, h2, C57_run env p hp noise seq h1 h2 h3 data hd⟩

/-- **C57** If the branch selector always answers with an outcome of positive probability (for instance the most likely one), every
such run reaches the end. -/
theorem C57_no_failure (env : DMEnv) (p : Pattern) (hp : p.OutputsOk) (hrun : p.checkRunnability = .ok ())
    (hS : ∀ n d, Command.S n d ∉ p.seq) (hE : ∀ u, Command.E u u ∉ p.seq) (noise : Option NoiseModel)
    (hn : ∀ m, noise = some m → LibraryModel m) (data : DMData) (hd : data.Ok p.inputs)
    (hsel : ∀ results n p0, 0 ≤ p0 → p0 ≤ 1 → ∃ o, env.sel results n p0 = .ok o ∧ 0 < (if o then 1 - p0 else p0)) :
    ∃ seq st out, noisySequence p noise = .ok seq ∧ simulateDM env p noise data = .ok st ∧
      RunsN env (noise.map (·.confuseResult)) p.inputs p.outputs (data.toDens p.inputs) seq st out := by
  obtain ⟨seq, h1, -, ⟨st, out, h3, h4⟩ | ⟨e, -, pre, n, m, s, t, post, out, -, -, h⟩⟩ :=
    C57_library env p hp hrun hS hE noise hn data hd
  · exact ⟨seq, st, out, h1, h3, h4⟩
  · exfalso
    rcases h with ⟨p0, h0, h1, -, h2⟩ | ⟨o, ⟨p0, h0, h1, h2, h3⟩, -, h4⟩
    · obtain ⟨o, ho, -⟩ := hsel _ n p0 h0 h1
      rw [ho] at h2; cases h2
    · obtain ⟨o', ho, hlt⟩ := hsel _ n p0 h0 h1
      rw [h3] at ho
      obtain rfl := Except.ok.inj ho
      obtain ⟨r, hr⟩ := exists_agrees (recordAll (noise.map (·.confuseResult)) env.draw out (measuredIn (eraseNoise pre))).1
      obtain ⟨g1, g2⟩ := h2 r hr
      have := h4 r hr
      rw [g2 o] at this
      rcases mul_eq_zero.1 this with h | h
      · rw [Complex.ofReal_eq_zero] at h; exact hlt.ne' h
      · exact g1 h

/-! ### Runs without noise -/

theorem densCmds_pure (chan : Noise → List (ℂ × (List Bool → List Bool → ℂ))) (r : ℕ → Bool) (seq : List Command) (ψ : QState) :
    densCmds chan r r (seq.map .cmd) (ketBra ψ) = ketBra (semCmds r seq ψ) := by
  induction seq generalizing ψ with
  | nil => rfl
  | cons c seq ih =>
    rw [List.map_cons, semCmds_cons, ← ih]
    show densCmds chan r r (seq.map .cmd) (conjBy (c.semRec r r) (ketBra ψ)) = _
    rw [Command.semRec_self, conjBy_ketBra (Command.sem_homog r c)]

theorem traceOn_ketBra (l : List ℕ) (ψ : QState) : traceOn l (ketBra ψ) = (stateNormSq l ψ : ℂ) := by
  unfold traceOn stateNormSq
  push_cast
  exact Finset.sum_congr rfl (fun S _ => by rw [ketBra, Complex.normSq_eq_conj_mul_self, mul_comm]; rfl)

/-- **C57** Without noise, on a pure input, the final density matrix is `|φ⟩⟨φ|` for the normalised state `φ` that the textbook
semantics gives to the branch of the recorded outcomes. -/
theorem C57_noiseless (env : DMEnv) (p : Pattern) (hp : p.OutputsOk) (hrun : p.checkRunnability = .ok ())
    (hS : ∀ n d, Command.S n d ∉ p.seq) (hE : ∀ u, Command.E u u ∉ p.seq) (data : InputData) (hd : data.Ok p.inputs.length) :
    (∃ st, simulateDM env p none (.pure data) = .ok st ∧ st.idx.list = p.outputs ∧
      (∀ n, (∃ o, st.results.get? n = some o) ↔ n ∈ measuredIn p.seq) ∧
      ∀ r, Agrees st.results r → 0 < branchProb p.inputs (data.toState p.inputs) p.seq r ∧
        absDens p.outputs st.dm.rho = ((branchProb p.inputs (data.toState p.inputs) p.seq r)⁻¹ : ℂ) •
          ketBra (semCmds r p.seq (data.toState p.inputs))) ∨
    ∃ e, simulateDM env p none (.pure data) = .error e ∧
      FailsN env none p.inputs (ketBra (data.toState p.inputs)) (p.seq.map .cmd) e := by
  obtain ⟨seq, h1, h2, h⟩ := C57_library env p hp hrun hS hE none (by simp) (.pure data) hd
  obtain rfl := Except.ok.inj h1
  rcases h with ⟨st, out, h3, h4, -, -, h5, h6, -, h7⟩ | ⟨e, h3, h4⟩
  · left
    rw [h2] at h6
    refine ⟨st, h3, h4, fun n => by rw [h6]; exact recordAll_keys _ _ _ _ _, fun r hr => ?_⟩
    obtain ⟨pr, g1, g2, g3⟩ := h7 r hr
    have hro : ∀ n ∈ measuredIn p.seq, out n = r n := by
      intro n hn
      refine (hr n (out n) ?_).symm
      rw [h6]; exact recordAll_none env.draw out _ n hn
    have e1 : densCmds env.chan r out (p.seq.map .cmd) (ketBra (data.toState p.inputs)) =
        ketBra (semCmds r p.seq (data.toState p.inputs)) := by
      rw [densCmds_congr env.chan r (out := out) (out' := r) (by rw [h2]; exact hro), densCmds_pure]
    have e2 : (branchProb p.inputs (data.toState p.inputs) p.seq r) = pr := by
      apply Complex.ofReal_injective
      rw [← g2]
      show _ = traceOn p.outputs (densCmds env.chan r out (p.seq.map .cmd) (ketBra (data.toState p.inputs)))
      rw [e1, traceOn_ketBra]
      unfold branchProb
      rw [stateNormSq_mem (nodup_liveList _ _) hp.outputs_nodup (fun n => by rw [mem_liveList, hp.outputs])]
    refine ⟨by rw [e2]; exact g1, ?_⟩
    rw [g3, e2]
    show _ • densCmds env.chan r out (p.seq.map .cmd) (ketBra (data.toState p.inputs)) = _
    rw [e1]; push_cast; rfl
  · right
    exact ⟨e, h3, h4⟩

/-- **C57** The two backends agree: if, for the same pattern and input, a run on the state-vector backend and a run on the
density-matrix backend (without noise) reach the end with the same outcomes, then the density matrix is `|ψ⟩⟨ψ|`, where `ψ` is the
state vector. -/
theorem C57_backends_agree (env : SimEnv) (env' : DMEnv) (p : Pattern) (henv : env.Ok p.seq) (hp : p.OutputsOk)
    (hrun : p.checkRunnability = .ok ()) (hS : ∀ n d, Command.S n d ∉ p.seq) (hE : ∀ u, Command.E u u ∉ p.seq)
    (data : InputData) (plusObj : Bool) (hd : data.Ok p.inputs.length)
    (hplus : plusObj = true → data = .state PlanarState.plus) (junk : ℕ → Buf) (sv : SimState) (dm : DMState)
    (h1 : simulate env p data plusObj junk = .ok sv) (h2 : simulateDM env' p none (.pure data) = .ok dm)
    (hres : ∀ n, sv.results.get? n = dm.results.get? n) :
    absDens p.outputs dm.dm.rho = ketBra (absState p.outputs sv.sv.psi) := by
  rcases C10_run env p henv hp hrun hS data plusObj hd hplus junk with ⟨st, g1, -, -, -, -, g2⟩ | ⟨e, g1, -⟩
  swap
  · rw [h1] at g1; cases g1
  rcases C57_noiseless env' p hp hrun hS hE data hd with ⟨st', f1, -, -, f2⟩ | ⟨e, f1, -⟩
  swap
  · rw [h2] at f1; cases f1
  obtain rfl := Except.ok.inj (h1.symm.trans g1)
  obtain rfl := Except.ok.inj (h2.symm.trans f1)
  obtain ⟨r, hr⟩ := exists_agrees sv.results
  have hr' : Agrees dm.results r := fun n o h => hr n o (by rw [hres, h])
  obtain ⟨-, k1, c, k2⟩ := g2 r hr
  obtain ⟨k3, k4⟩ := f2 r hr'
  have hb : branchProb p.inputs (data.toState p.inputs) p.seq r =
      stateNormSq p.outputs (semCmds r p.seq (data.toState p.inputs)) := by
    unfold branchProb
    exact stateNormSq_mem (nodup_liveList _ _) hp.outputs_nodup (fun n => by rw [mem_liveList, hp.outputs]) _
  rw [k2, stateNormSq_smul, ← hb] at k1
  rw [k4, k2, ketBra_smul]
  congr 1
  have e : c * star c = ((Complex.normSq c : ℝ) : ℂ) := by rw [Complex.normSq_eq_conj_mul_self, mul_comm]; rfl
  rw [e]
  have : Complex.normSq c = (branchProb p.inputs (data.toState p.inputs) p.seq r)⁻¹ := eq_inv_of_mul_eq_one_left k1
  rw [this]; push_cast; rfl

end Graphix
