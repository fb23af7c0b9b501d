import Verif.Model.Noise

/-!
# C45: noise models only insert noise
-/

namespace Graphix

/-- The nodes of a command or noise. -/
def CmdOrNoise.nodes : CmdOrNoise → List ℕ
  | .cmd (.N n _) => [n]
  | .cmd (.E u v) => [u, v]
  | .cmd (.M n _ _ _) => [n]
  | .cmd (.X n _) => [n]
  | .cmd (.Z n _) => [n]
  | .cmd (.C n _) => [n]
  | .cmd (.S n _) => [n]
  | .cmd .T => []
  | .noise a => a.nodes

/-- The domain on which a command or noise is conditioned. -/
def CmdOrNoise.domain : CmdOrNoise → Option (Finset ℕ)
  | .cmd (.X _ d) => some d
  | .cmd (.Z _ d) => some d
  | .noise a => a.domain
  | _ => none

/-- `c` is a noise on nodes of `orig`, as many as the noise requires, conditioned as `orig` is. -/
def NoiseOn (orig c : CmdOrNoise) : Prop :=
  ∃ a : ApplyNoise, c = .noise a ∧ a.domain = orig.domain ∧ (∀ n ∈ a.nodes, n ∈ orig.nodes)

/-- `out` is `c` with noise inserted: before it only if it is a measurement, after it only if it is not. -/
def Inserts (c : CmdOrNoise) (out : List CmdOrNoise) : Prop :=
  ∃ pre post, out = pre ++ [c] ++ post ∧ (∀ x ∈ pre, NoiseOn c x) ∧ (∀ x ∈ post, NoiseOn c x) ∧
    ((∃ n m s t, c = .cmd (.M n m s t)) → post = []) ∧
    ((∀ n m s t, c ≠ .cmd (.M n m s t)) → (∀ a, c ≠ .noise a) → pre = [])

/-- A noise model that only inserts noise around each command. -/
def NoiseModel.OnlyInserts (m : NoiseModel) : Prop :=
  (∀ c out, m.command c = .ok out → Inserts c out) ∧
  (∀ nodes out, m.inputNodes nodes = .ok out → ∀ x ∈ out, ∃ a, x = .noise a ∧ a.domain = none ∧ ∀ n ∈ a.nodes, n ∈ nodes)

/-- The commands of a sequence, without the noise. -/
def eraseNoise (l : List CmdOrNoise) : List Command := l.filterMap fun
  | .cmd c => some c
  | .noise _ => none

theorem inserts_self (c : CmdOrNoise) : Inserts c [c] := ⟨[], [], by simp, by simp, by simp, fun _ => rfl, fun _ _ => rfl⟩

/-- **C45** The models of the library only insert noise. -/
theorem C45_noiseless : NoiseModel.noiseless.OnlyInserts := by
  constructor
  · intro c out h; obtain rfl := Except.ok.inj h; exact inserts_self c
  · intro nodes out h; obtain rfl := Except.ok.inj h; simp

theorem ofKind_onlyInserts (one two : ℝ → Noise) (p : NoiseModel.Params) : (NoiseModel.ofKind one two p).OnlyInserts := by
  have after : ∀ (c : Command) (a : ApplyNoise), NoiseOn (.cmd c) (.noise a) → (∀ n m s t, c ≠ .M n m s t) →
      Inserts (.cmd c) [.cmd c, .noise a] := by
    intro c a ha hc
    refine ⟨[], [.noise a], rfl, by simp, by simpa using ha, ?_, fun _ _ => rfl⟩
    rintro ⟨n, m, s, t, h⟩
    exact absurd (by injection h) (hc n m s t)
  constructor
  · intro c out h
    rcases c with c | a
    · cases c <;> simp only [NoiseModel.ofKind] at h <;> try cases h
      · exact after _ _ ⟨_, rfl, rfl, by simp [CmdOrNoise.nodes]⟩ (by simp)
      · refine ⟨[_], [], rfl, ?_, by simp, fun _ => rfl, fun h => absurd rfl (h _ _ _ _)⟩
        intro x hx
        rw [List.mem_singleton] at hx
        exact ⟨_, hx, rfl, by simp [CmdOrNoise.nodes]⟩
      · exact after _ _ ⟨_, rfl, rfl, by simp [CmdOrNoise.nodes]⟩ (by simp)
      · exact inserts_self _
      · exact after _ _ ⟨_, rfl, rfl, by simp [CmdOrNoise.nodes]⟩ (by simp)
      · exact after _ _ ⟨_, rfl, rfl, by simp [CmdOrNoise.nodes]⟩ (by simp)
      · exact inserts_self _
    · simp only [NoiseModel.ofKind] at h
      obtain rfl := Except.ok.inj h
      exact inserts_self _
  · intro nodes out h
    simp only [NoiseModel.ofKind] at h
    obtain rfl := Except.ok.inj h
    intro x hx
    obtain ⟨n, hn, rfl⟩ := List.mem_map.1 hx
    exact ⟨_, rfl, rfl, by simpa using hn⟩

/-- **C45** `DepolarisingNoiseModel` and `AmplitudeDampingNoiseModel` only insert noise: after each preparation,
entanglement and correction, and before each measurement, on the same nodes and with the same domain. -/
theorem C45_depolarising (p : NoiseModel.Params) : (NoiseModel.depolarising p).OnlyInserts := ofKind_onlyInserts _ _ p
theorem C45_amplitude_damping (p : NoiseModel.Params) : (NoiseModel.amplitudeDamping p).OnlyInserts :=
  ofKind_onlyInserts _ _ p

/-- The inserted noise of these models acts on as many nodes as it requires. -/
theorem C45_arity (p : NoiseModel.Params) (c : Command) (out : List CmdOrNoise)
    (h : (NoiseModel.depolarising p).command (.cmd c) = .ok out ∨ (NoiseModel.amplitudeDamping p).command (.cmd c) = .ok out) :
    ∀ a, CmdOrNoise.noise a ∈ out → a.nodes.length = a.noise.nqubits := by
  rcases h with h | h <;> (
    intro a ha
    cases c <;> simp only [NoiseModel.depolarising, NoiseModel.amplitudeDamping, NoiseModel.ofKind] at h <;>
      first
        | cases h
        | skip
    all_goals simp at ha
    all_goals (subst ha; rfl))

/-- **C45** Exactly the sequences with a signal command are rejected. -/
theorem C45_command_defined (p : NoiseModel.Params) (c : CmdOrNoise) :
    ((∃ out, (NoiseModel.depolarising p).command c = .ok out) ↔ ∀ n d, c ≠ .cmd (.S n d)) ∧
    ((∃ out, (NoiseModel.amplitudeDamping p).command c = .ok out) ↔ ∀ n d, c ≠ .cmd (.S n d)) := by
  constructor <;> (
    rcases c with c | a
    · cases c <;> simp [NoiseModel.depolarising, NoiseModel.amplitudeDamping, NoiseModel.ofKind]
    · simp [NoiseModel.depolarising, NoiseModel.amplitudeDamping, NoiseModel.ofKind])

/-- **C45** Transpiling a sequence through a model that only inserts noise gives, in order, each command with
noise inserted around it; erasing the noise gives back the commands of the sequence. -/
theorem C45_transpile (m : NoiseModel) (hm : m.OnlyInserts) : ∀ (seq out : List CmdOrNoise),
    m.transpile seq = .ok out →
    (∃ blocks, out = List.flatten blocks ∧ List.Forall₂ Inserts seq blocks) ∧ eraseNoise out = eraseNoise seq
  | [], out, h => by
    obtain rfl := Except.ok.inj h
    exact ⟨⟨[], rfl, List.Forall₂.nil⟩, rfl⟩
  | c :: seq, out, h => by
    unfold NoiseModel.transpile at h
    cases hc : m.command c with
    | error e => simp only [hc, bind, Except.bind] at h; cases h
    | ok o =>
      cases hr : m.transpile seq with
      | error e => simp only [hc, hr, bind, Except.bind] at h; cases h
      | ok rest =>
        simp only [hc, hr, bind, Except.bind, pure, Except.pure] at h
        obtain rfl := Except.ok.inj h
        obtain ⟨⟨blocks, rfl, hf⟩, he⟩ := C45_transpile m hm seq rest hr
        have hi := hm.1 c o hc
        refine ⟨⟨o :: blocks, by simp, List.Forall₂.cons hi hf⟩, ?_⟩
        have hnil : ∀ l : List CmdOrNoise, (∀ x ∈ l, NoiseOn c x) → eraseNoise l = [] := by
          intro l hl
          unfold eraseNoise
          rw [List.filterMap_eq_nil_iff]
          intro x hx
          obtain ⟨a, rfl, -⟩ := hl x hx
          rfl
        obtain ⟨pre, post, rfl, h1, h2, -⟩ := hi
        have happ : ∀ l l', eraseNoise (l ++ l') = eraseNoise l ++ eraseNoise l' := fun l l' => List.filterMap_append
        rw [happ, happ, happ, hnil pre h1, hnil post h2, he, List.nil_append, List.append_nil,
          ← happ, List.singleton_append]

theorem noiseOn_trans {c x y : CmdOrNoise} (h1 : NoiseOn c x) (h2 : NoiseOn x y) : NoiseOn c y := by
  obtain ⟨a, rfl, h3, h4⟩ := h1
  obtain ⟨b, rfl, h5, h6⟩ := h2
  exact ⟨b, rfl, h5.trans h3, fun n hn => h4 n (h6 n hn)⟩

theorem transpile_append (m : NoiseModel) : ∀ (l l' out : List CmdOrNoise), m.transpile (l ++ l') = .ok out →
    ∃ o o', m.transpile l = .ok o ∧ m.transpile l' = .ok o' ∧ out = o ++ o'
  | [], l', out, h => ⟨[], out, rfl, h, rfl⟩
  | c :: l, l', out, h => by
    rw [List.cons_append] at h
    unfold NoiseModel.transpile at h
    cases hc : m.command c with
    | error e => simp only [hc, bind, Except.bind] at h; cases h
    | ok o =>
      cases hr : m.transpile (l ++ l') with
      | error e => simp only [hc, hr, bind, Except.bind] at h; cases h
      | ok rest =>
        simp only [hc, hr, bind, Except.bind, pure, Except.pure] at h
        obtain rfl := Except.ok.inj h
        obtain ⟨a, b, h1, h2, rfl⟩ := transpile_append m l l' rest hr
        refine ⟨o ++ a, b, ?_, h2, by simp⟩
        simp only [NoiseModel.transpile, hc, h1, bind, Except.bind, pure, Except.pure]

theorem transpile_noise (m : NoiseModel) (hm : m.OnlyInserts) (c : CmdOrNoise) : ∀ (l out : List CmdOrNoise),
    (∀ x ∈ l, NoiseOn c x) → m.transpile l = .ok out → ∀ x ∈ out, NoiseOn c x := by
  intro l out hl h x hx
  obtain ⟨⟨blocks, rfl, hf⟩, -⟩ := C45_transpile m hm l out h
  obtain ⟨b, hb, hxb⟩ := List.mem_flatten.1 hx
  clear h hx
  induction hf with
  | nil => simp at hb
  | @cons a b' l' bs hi _ ih =>
    rcases List.mem_cons.1 hb with rfl | hb
    · have ha := hl a List.mem_cons_self
      obtain ⟨pre, post, rfl, h1, h2, -⟩ := hi
      rcases List.mem_append.1 hxb with h | h
      · rcases List.mem_append.1 h with h | h
        · exact noiseOn_trans ha (h1 x h)
        · rw [List.mem_singleton] at h; exact h ▸ ha
      · exact noiseOn_trans ha (h2 x h)
    · exact ih (fun y hy => hl y (List.mem_cons_of_mem _ hy)) hb

theorem composeCommand_inserts (c : CmdOrNoise) : ∀ (ms : List NoiseModel) (seq out : List CmdOrNoise),
    (∀ m ∈ ms, m.OnlyInserts) → Inserts c seq → NoiseModel.composeCommand seq ms = .ok out → Inserts c out
  | [], seq, out, _, hi, h => by obtain rfl := Except.ok.inj h; exact hi
  | m :: ms, seq, out, hm, hi, h => by
    unfold NoiseModel.composeCommand at h
    cases hs : m.transpile seq with
    | error e => simp only [hs, bind, Except.bind] at h; cases h
    | ok seq' =>
      simp only [hs, bind, Except.bind] at h
      refine composeCommand_inserts c ms seq' out (fun x hx => hm x (List.mem_cons_of_mem _ hx)) ?_ h
      have hm1 := hm m List.mem_cons_self
      obtain ⟨pre, post, rfl, h1, h2, h3, h4⟩ := hi
      obtain ⟨o12, o3, e12, e3, rfl⟩ := transpile_append m _ _ _ hs
      obtain ⟨o1, o2, e1, e2, rfl⟩ := transpile_append m _ _ _ e12
      have hn1 := transpile_noise m hm1 c pre o1 h1 e1
      have hn3 := transpile_noise m hm1 c post o3 h2 e3
      have e2' : ∃ o, m.command c = .ok o ∧ o2 = o := by
        unfold NoiseModel.transpile at e2
        cases hc : m.command c with
        | error e => simp only [hc, bind, Except.bind] at e2; cases e2
        | ok o =>
          simp only [hc, bind, Except.bind, NoiseModel.transpile, pure, Except.pure] at e2
          exact ⟨o, rfl, by rw [← Except.ok.inj e2, List.append_nil]⟩
      obtain ⟨o, hc, rfl⟩ := e2'
      obtain ⟨pre', post', rfl, g1, g2, g3, g4⟩ := hm1.1 c _ hc
      refine ⟨o1 ++ pre', post' ++ o3, by simp, ?_, ?_, ?_, ?_⟩
      · intro x hx
        rcases List.mem_append.1 hx with h | h
        · exact hn1 x h
        · exact g1 x h
      · intro x hx
        rcases List.mem_append.1 hx with h | h
        · exact g2 x h
        · exact hn3 x h
      · intro hM
        rw [g3 hM]
        rw [h3 hM] at e3
        obtain rfl := Except.ok.inj e3
        rfl
      · intro hM hN
        rw [g4 hM hN]
        rw [h4 hM hN] at e1
        obtain rfl := Except.ok.inj e1
        rfl

/-- **C45** A composition of models that only insert noise only inserts noise. -/
theorem C45_compose (ms : List NoiseModel) (hm : ∀ m ∈ ms, m.OnlyInserts) : (NoiseModel.compose ms).OnlyInserts := by
  constructor
  · intro c out h
    exact composeCommand_inserts c ms [c] out hm (inserts_self c) h
  · intro nodes
    simp only [NoiseModel.compose]
    induction ms with
    | nil => intro out h; obtain rfl := Except.ok.inj h; simp
    | cons m ms ih =>
      intro out h
      unfold NoiseModel.composeInputNodes at h
      cases h1 : m.inputNodes nodes with
      | error e => simp only [h1, bind, Except.bind] at h; cases h
      | ok o =>
        cases h2 : NoiseModel.composeInputNodes nodes ms with
        | error e => simp only [h1, h2, bind, Except.bind] at h; cases h
        | ok o' =>
          simp only [h1, h2, bind, Except.bind, pure, Except.pure] at h
          obtain rfl := Except.ok.inj h
          intro x hx
          rcases List.mem_append.1 hx with h | h
          · exact (hm m List.mem_cons_self).2 nodes o h1 x h
          · exact ih (fun y hy => hm y (List.mem_cons_of_mem _ hy)) o' h2 x h

/-- **C45** The composition applies the models in order: composing with one more model is transpiling its
result, and confusing its result. -/
theorem C45_compose_order (ms : List NoiseModel) (m : NoiseModel) :
    (∀ c, (NoiseModel.compose (ms ++ [m])).command c = (NoiseModel.compose ms).command c >>= m.transpile) ∧
    (∀ draw k r, (NoiseModel.compose (ms ++ [m])).confuseResult draw k r =
      m.confuseResult draw ((NoiseModel.compose ms).confuseResult draw k r).2
        ((NoiseModel.compose ms).confuseResult draw k r).1) := by
  constructor
  · intro c
    simp only [NoiseModel.compose]
    generalize [c] = seq
    induction ms generalizing seq with
    | nil =>
      simp only [List.nil_append, NoiseModel.composeCommand, bind, Except.bind]
      cases m.transpile seq <;> rfl
    | cons m' ms ih =>
      simp only [List.cons_append, NoiseModel.composeCommand]
      cases h : m'.transpile seq with
      | error e => rfl
      | ok seq' => simp only [bind, Except.bind]; exact ih seq'
  · intro draw k r
    simp only [NoiseModel.compose]
    induction ms generalizing k r with
    | nil =>
      simp only [List.nil_append, NoiseModel.composeConfuse]
    | cons m' ms ih => simp only [List.cons_append, NoiseModel.composeConfuse]; exact ih _ _

/-- **C45** A measurement result is flipped exactly when the draw is below the error probability; in particular,
draws being at least zero, never for a zero probability. -/
theorem C45_confuse (p : NoiseModel.Params) (draw : ℕ → ℝ) (k : ℕ) (r : Bool) :
    (((NoiseModel.depolarising p).confuseResult draw k r).1 ≠ r ↔ draw k < p.measureErrorProb) ∧
    (((NoiseModel.amplitudeDamping p).confuseResult draw k r).1 ≠ r ↔ draw k < p.measureErrorProb) := by
  constructor <;> (
    simp only [NoiseModel.depolarising, NoiseModel.amplitudeDamping, NoiseModel.ofKind]
    split <;> rename_i h <;> simp [h])

/-- Non-trivial instance: two models composed, on a preparation, an entanglement, a measurement and a correction. -/
example (p : NoiseModel.Params) (n : ℕ) : ∃ out,
    (NoiseModel.compose [NoiseModel.depolarising p, NoiseModel.amplitudeDamping p]).transpile
      [.cmd (.N n PlanarState.plus), .cmd (.E 0 n), .cmd (.M 0 (.pauli ⟨.X, .plus⟩) ∅ ∅), .cmd (.X n {0})] = .ok out ∧
    eraseNoise out = [.N n PlanarState.plus, .E 0 n, .M 0 (.pauli ⟨.X, .plus⟩) ∅ ∅, .X n {0}] ∧ out.length = 12 :=
  ⟨_, rfl, rfl, rfl⟩

end Graphix
