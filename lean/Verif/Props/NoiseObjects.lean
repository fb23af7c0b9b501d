import Verif.Model.NoiseObjects
import Verif.Props.DensityNoise

/-!
# C81: noise objects
-/

open scoped Kronecker

namespace Graphix

/-- A value that is a probability. -/
def PyFloat.IsProb (v : PyFloat) : Prop := ∃ x : ℝ, v = .real x ∧ 0 ≤ x ∧ x ≤ 1

theorem probability_validate (v : PyFloat) :
    (probability.validate v = .ok () ∧ (v = .nan ∨ v.IsProb)) ∨ (probability.validate v = .error .valueError ∧ ¬ (v = .nan ∨ v.IsProb)) := by
  classical
  have h : ∀ P Q : Prop, [Decidable P] → [Decidable Q] →
      (if P then (.error .valueError : Except PyErr Unit) else if Q then .error .valueError else .ok ()) = .ok () ∧ ¬ P ∧ ¬ Q ∨
      (if P then (.error .valueError : Except PyErr Unit) else if Q then .error .valueError else .ok ()) = .error .valueError ∧ (P ∨ Q) := by
    intro P Q _ _
    by_cases hP : P
    · right; rw [if_pos hP]; exact ⟨rfl, Or.inl hP⟩
    · rw [if_neg hP]
      by_cases hQ : Q
      · right; rw [if_pos hQ]; exact ⟨rfl, Or.inr hQ⟩
      · left; rw [if_neg hQ]; exact ⟨rfl, hP, hQ⟩
  unfold BoundedFloat.validate probability
  simp only [Option.mem_def, Option.some.injEq, exists_eq_left']
  rcases h (v.lt (.real 0)) ((PyFloat.real 1).lt v) with ⟨h1, h2, h3⟩ | ⟨h1, h2⟩
  · refine Or.inl ⟨h1, ?_⟩
    cases v with
    | nan => exact Or.inl rfl
    | negInf => exact absurd trivial h2
    | posInf => exact absurd trivial h3
    | real x => exact Or.inr ⟨x, rfl, not_lt.1 h2, not_lt.1 h3⟩
  · refine Or.inr ⟨h1, ?_⟩
    rintro (rfl | ⟨x, rfl, h4, h5⟩)
    · rcases h2 with h2 | h2 <;> exact h2
    · rcases h2 with h2 | h2
      · exact absurd h2 (not_lt.2 h4)
      · exact absurd h2 (not_lt.2 h5)

/-- **C81** A noise is constructed exactly from the values in `[0, 1]`, and from `nan`; the error is a `ValueError`. -/
theorem C81_new (cls : NoiseClass) (v : PyFloat) :
    ((v = .nan ∨ v.IsProb) → NoiseObj.new cls v = .ok ⟨cls, v⟩) ∧ (¬ (v = .nan ∨ v.IsProb) → NoiseObj.new cls v = .error .valueError) := by
  unfold NoiseObj.new
  rcases probability_validate v with ⟨h1, h2⟩ | ⟨h1, h2⟩
  · exact ⟨fun _ => by rw [h1]; rfl, fun h => absurd h2 h⟩
  · exact ⟨fun h => absurd h h2, fun _ => by rw [h1]; rfl⟩

theorem set_eq (o : NoiseObj) (v : PyFloat) :
    ((v = .nan ∨ v.IsProb) → o.set v = .ok { o with prob := v }) ∧ (¬ (v = .nan ∨ v.IsProb) → o.set v = .error .valueError) := by
  unfold NoiseObj.set
  rcases probability_validate v with ⟨h1, h2⟩ | ⟨h1, h2⟩
  · exact ⟨fun _ => by rw [h1]; rfl, fun h => absurd h2 h⟩
  · exact ⟨fun h => absurd h h2, fun _ => by rw [h1]; rfl⟩

open scoped Classical in
/-- **C81** For every history of assignments: the object keeps its class, and its probability is the last value that was accepted (a rejected value
changes nothing). -/
theorem C81_history (o : NoiseObj) (vs : List PyFloat) :
    (o.assignAll vs).cls = o.cls ∧
    (o.assignAll vs).prob = ((vs.filter fun v => decide (v = .nan ∨ v.IsProb)).getLast?).getD o.prob := by
  induction vs generalizing o with
  | nil => exact ⟨rfl, rfl⟩
  | cons v vs ih =>
    unfold NoiseObj.assignAll
    by_cases hv : v = .nan ∨ v.IsProb
    · rw [(set_eq o v).1 hv, List.filter_cons, if_pos (decide_eq_true hv)]
      refine ⟨(ih _).1, (ih _).2.trans ?_⟩
      rw [List.getLast?_cons, Option.getD_some]
    · rw [(set_eq o v).2 hv, List.filter_cons, if_neg (by rw [decide_eq_false hv]; simp)]
      exact ih o

/-- **C81, partial** (what is missing: `nan`, see `C81_nan`). A noise that is constructed and then assigned any values but `nan`, in any order and with any
rejected values in between, always has a probability in `[0, 1]`, and its channel is built and preserves the trace. -/
theorem C81_channel_partial (user : ℕ → Except PyErr NpChannel) (cls : NoiseClass) (v : PyFloat) (o : NoiseObj) (h : NoiseObj.new cls v = .ok o)
    (vs : List PyFloat) (hv : v ≠ .nan) (hvs : PyFloat.nan ∉ vs) :
    ∃ x : ℝ, (o.assignAll vs) = ⟨cls, .real x⟩ ∧ 0 ≤ x ∧ x ≤ 1 ∧
      ∃ ch, (o.assignAll vs).toKraus user = .ok ch ∧ GoodChannel (cls.noise x).nqubits ch := by
  classical
  have hp : (v = .nan ∨ v.IsProb) := by
    by_contra hn
    rw [(C81_new cls v).2 hn] at h; cases h
  rw [(C81_new cls v).1 hp] at h
  obtain rfl := Except.ok.inj h
  have hprob : v.IsProb := hp.resolve_left hv
  obtain ⟨h1, h2⟩ := C81_history ⟨cls, v⟩ vs
  have h3 : ((NoiseObj.mk cls v).assignAll vs).prob.IsProb := by
    rw [h2]
    cases hl : (vs.filter fun v => decide (v = .nan ∨ v.IsProb)).getLast? with
    | none => exact hprob
    | some w =>
      have hw := List.mem_of_getLast? hl
      rw [List.mem_filter] at hw
      refine (of_decide_eq_true hw.2).resolve_left ?_
      rintro rfl
      exact hvs hw.1
  obtain ⟨x, hx, h0, h01⟩ := h3
  have heq : (NoiseObj.mk cls v).assignAll vs = ⟨cls, .real x⟩ := by
    cases hobj : (NoiseObj.mk cls v).assignAll vs with
    | mk c q => rw [hobj] at hx h1; dsimp only at hx h1; rw [hx, h1]
  refine ⟨x, heq, h0, h01, ?_⟩
  rw [heq]
  exact C56_library_channels user x h0 h01 (cls.noise x) (by cases cls <;> simp [NoiseClass.noise])

/-- **C81** What the channel of each class does, at a probability `x`: Pauli errors, or decay of the excited state, on one qubit or on two. -/
theorem C81_action (user : ℕ → Except PyErr NpChannel) (x : ℝ) (h0 : 0 ≤ x) (h1 : x ≤ 1) :
    (∃ ch : KrausChannel Bool, NoiseObj.toKraus user ⟨.depolarising, .real x⟩ = .ok ch.toNp1 ∧ ch.Complete ∧ ∀ ρ, ch.act ρ =
      ((1 - x : ℝ) : ℂ) • ρ + ((x / 3 : ℝ) : ℂ) • (Ops.X * ρ * Ops.X + Ops.Y * ρ * Ops.Y + Ops.Z * ρ * Ops.Z)) ∧
    (∃ ch : KrausChannel (Bool × Bool), NoiseObj.toKraus user ⟨.twoQubitDepolarising, .real x⟩ = .ok ch.toNp2 ∧ ch.Complete ∧ ∀ ρ, ch.act ρ =
      ((1 - x : ℝ) : ℂ) • ρ + ((x / 15 : ℝ) : ℂ) • ∑ P ∈ twoQubitPaulis,
        (Ops.fromIxyz P.1 ⊗ₖ Ops.fromIxyz P.2) * ρ * (Ops.fromIxyz P.1 ⊗ₖ Ops.fromIxyz P.2)) ∧
    (∃ ch₁ : KrausChannel Bool, NoiseObj.toKraus user ⟨.amplitudeDamping, .real x⟩ = .ok ch₁.toNp1 ∧ ch₁.Complete ∧
      (∀ a b c d : ℂ, ch₁.act (mat2 a b c d) = mat2 (a + x * d) (csqrt (1 - x) * b) (csqrt (1 - x) * c) ((1 - x : ℝ) * d)) ∧
      ∃ ch : KrausChannel (Bool × Bool), NoiseObj.toKraus user ⟨.twoQubitAmplitudeDamping, .real x⟩ = .ok ch.toNp2 ∧ ch.Complete ∧
        ∀ ρ σ : Mat2, ch.act (ρ ⊗ₖ σ) = ch₁.act ρ ⊗ₖ ch₁.act σ) := by
  refine ⟨?_, ?_, ?_⟩
  · obtain ⟨ch, h2, h3, h4⟩ := C43_depolarising x h0 h1
    refine ⟨ch, ?_, h3, fun ρ => (h4 ρ).1⟩
    simp only [NoiseObj.toKraus, NoiseClass.noise, Noise.toKrausChannel, h2, bind, Except.bind, pure, Except.pure]
  · obtain ⟨ch, h2, h3, h4⟩ := C43_two_qubit_depolarising x h0 h1
    refine ⟨ch, ?_, h3, h4⟩
    simp only [NoiseObj.toKraus, NoiseClass.noise, Noise.toKrausChannel, h2, bind, Except.bind, pure, Except.pure]
  · obtain ⟨ch₁, ch, h2, h3, h4, h5⟩ := C43_two_qubit_amplitude_damping x h0 h1
    obtain ⟨ch', h6, h7, h8⟩ := C43_amplitude_damping x h0 h1
    obtain rfl : ch₁ = ch' := Except.ok.inj (h2.symm.trans h6)
    refine ⟨ch₁, ?_, h7, h8, ch, ?_, h4, h5⟩ <;>
      simp only [NoiseObj.toKraus, NoiseClass.noise, Noise.toKrausChannel, h2, h3, bind, Except.bind, pure, Except.pure]

/-- **C81, failure.** `nan` is accepted (no comparison with it is true), although it is not between 0 and 1; the error comes when the channel is built. -/
theorem C81_nan (user : ℕ → Except PyErr NpChannel) (cls : NoiseClass) :
    NoiseObj.new cls .nan = .ok ⟨cls, .nan⟩ ∧ ¬ PyFloat.nan.IsProb ∧ NoiseObj.toKraus user ⟨cls, .nan⟩ = .error .valueError := by
  refine ⟨(C81_new cls .nan).1 (Or.inl rfl), ?_, rfl⟩
  rintro ⟨x, hx, -⟩
  cases hx

/-- The parameter of the noise that goes with a command. -/
def NoiseModel.Params.usedBy (p : NoiseModel.Params) : CmdOrNoise → Option ℝ
  | .cmd (.N _ _) => some p.prepareErrorProb
  | .cmd (.E _ _) => some p.entanglementErrorProb
  | .cmd (.M _ _ _ _) => some p.measureChannelProb
  | .cmd (.X _ _) => some p.xErrorProb
  | .cmd (.Z _ _) => some p.zErrorProb
  | _ => none

theorem new_real (cls : NoiseClass) (x : ℝ) :
    (0 ≤ x ∧ x ≤ 1 → NoiseObj.new cls (.real x) = .ok ⟨cls, .real x⟩) ∧ (¬ (0 ≤ x ∧ x ≤ 1) → NoiseObj.new cls (.real x) = .error .valueError) := by
  have h : (PyFloat.real x = .nan ∨ (PyFloat.real x).IsProb) ↔ (0 ≤ x ∧ x ≤ 1) := by
    constructor
    · rintro (h | ⟨y, hy, h⟩)
      · cases h
      · cases hy; exact h
    · exact fun h => Or.inr ⟨x, rfl, h⟩
  rw [← h]
  exact C81_new cls _

/-- **C45, C81** A model raises exactly for a signal command and for a command whose noise has a parameter out of `[0, 1]`; otherwise it gives the
commands of `Model/Noise.lean`. -/
theorem C81_model (one two : NoiseClass) (p : NoiseModel.Params) (c : CmdOrNoise) :
    ((∃ out, NoiseModel.checkedCommand one two p c = .ok out) ↔ (∀ n d, c ≠ .cmd (.S n d)) ∧ ∀ q, p.usedBy c = some q → 0 ≤ q ∧ q ≤ 1) ∧
    (∀ out, NoiseModel.checkedCommand one two p c = .ok out → (NoiseModel.ofKind one.noise two.noise p).command c = .ok out) ∧
    (p.Ok → NoiseModel.checkedCommand one two p c = (NoiseModel.ofKind one.noise two.noise p).command c) := by
  have key : ∀ (cls : NoiseClass) (x : ℝ) (out : List CmdOrNoise),
      ((∃ o, (do let _ ← NoiseObj.new cls (.real x); return out : Except PyErr (List CmdOrNoise)) = .ok o) ↔ 0 ≤ x ∧ x ≤ 1) ∧
      (∀ o, (do let _ ← NoiseObj.new cls (.real x); return out : Except PyErr (List CmdOrNoise)) = .ok o → o = out) ∧
      (0 ≤ x ∧ x ≤ 1 → (do let _ ← NoiseObj.new cls (.real x); return out : Except PyErr (List CmdOrNoise)) = .ok out) := by
    intro cls x out
    by_cases hx : 0 ≤ x ∧ x ≤ 1
    · rw [(new_real cls x).1 hx]
      exact ⟨⟨fun _ => hx, fun _ => ⟨out, rfl⟩⟩, fun o ho => (Except.ok.inj ho).symm, fun _ => rfl⟩
    · rw [(new_real cls x).2 hx]
      refine ⟨⟨?_, fun h => absurd h hx⟩, ?_, fun h => absurd h hx⟩
      · rintro ⟨o, ho⟩; cases ho
      · intro o ho; cases ho
  rcases c with c | a
  · cases c with
    | N n s =>
      obtain ⟨k1, k2, k3⟩ := key one p.prepareErrorProb [.cmd (.N n s), .noise ⟨one.noise p.prepareErrorProb, [n], none⟩]
      exact ⟨⟨fun h => ⟨by simp, fun q hq => Option.some.inj hq ▸ k1.1 h⟩, fun h => k1.2 (h.2 _ rfl)⟩,
        fun o ho => by rw [k2 o ho]; rfl, fun hp => k3 hp.prepare⟩
    | E u v =>
      obtain ⟨k1, k2, k3⟩ := key two p.entanglementErrorProb [.cmd (.E u v), .noise ⟨two.noise p.entanglementErrorProb, [u, v], none⟩]
      exact ⟨⟨fun h => ⟨by simp, fun q hq => Option.some.inj hq ▸ k1.1 h⟩, fun h => k1.2 (h.2 _ rfl)⟩,
        fun o ho => by rw [k2 o ho]; rfl, fun hp => k3 hp.entanglement⟩
    | M n m s t =>
      obtain ⟨k1, k2, k3⟩ := key one p.measureChannelProb [.noise ⟨one.noise p.measureChannelProb, [n], none⟩, .cmd (.M n m s t)]
      exact ⟨⟨fun h => ⟨by simp, fun q hq => Option.some.inj hq ▸ k1.1 h⟩, fun h => k1.2 (h.2 _ rfl)⟩,
        fun o ho => by rw [k2 o ho]; rfl, fun hp => k3 hp.measureChannel⟩
    | X n d =>
      obtain ⟨k1, k2, k3⟩ := key one p.xErrorProb [.cmd (.X n d), .noise ⟨one.noise p.xErrorProb, [n], some d⟩]
      exact ⟨⟨fun h => ⟨by simp, fun q hq => Option.some.inj hq ▸ k1.1 h⟩, fun h => k1.2 (h.2 _ rfl)⟩,
        fun o ho => by rw [k2 o ho]; rfl, fun hp => k3 hp.x⟩
    | Z n d =>
      obtain ⟨k1, k2, k3⟩ := key one p.zErrorProb [.cmd (.Z n d), .noise ⟨one.noise p.zErrorProb, [n], some d⟩]
      exact ⟨⟨fun h => ⟨by simp, fun q hq => Option.some.inj hq ▸ k1.1 h⟩, fun h => k1.2 (h.2 _ rfl)⟩,
        fun o ho => by rw [k2 o ho]; rfl, fun hp => k3 hp.z⟩
    | C n c => exact ⟨⟨fun _ => ⟨by simp, fun q hq => by cases hq⟩, fun _ => ⟨_, rfl⟩⟩, fun o ho => ho, fun _ => rfl⟩
    | T => exact ⟨⟨fun _ => ⟨by simp, fun q hq => by cases hq⟩, fun _ => ⟨_, rfl⟩⟩, fun o ho => ho, fun _ => rfl⟩
    | S n d =>
      refine ⟨⟨?_, fun h => absurd rfl (h.1 n d)⟩, fun o ho => ho, fun _ => rfl⟩
      rintro ⟨o, ho⟩; cases ho
  · exact ⟨⟨fun _ => ⟨by simp, fun q hq => by cases hq⟩, fun _ => ⟨_, rfl⟩⟩, fun o ho => ho, fun _ => rfl⟩

/-- A noise with probability 1/2, then `prob = 2` (rejected), then `prob = 1`. -/
example (user : ℕ → Except PyErr NpChannel) : ∃ o, NoiseObj.new .depolarising (.real (1 / 2)) = .ok o ∧
    (o.assignAll [.real 2, .real 1, .posInf]).prob = .real 1 ∧
    ∃ ch, (o.assignAll [.real 2, .real 1, .posInf]).toKraus user = .ok ch := by
  have h := (C81_new .depolarising (.real (1 / 2))).1 (Or.inr ⟨1 / 2, rfl, by norm_num, by norm_num⟩)
  refine ⟨_, h, ?_, ?_⟩
  · have h1 : (PyFloat.real 1).IsProb := ⟨1, rfl, by norm_num, le_rfl⟩
    have h2 : ¬ (PyFloat.real 2 = .nan ∨ (PyFloat.real 2).IsProb) := by
      rintro (h | ⟨x, hx, -, h⟩)
      · cases h
      · cases hx; norm_num at h
    have h3 : ¬ (PyFloat.posInf = .nan ∨ PyFloat.posInf.IsProb) := by
      rintro (h | ⟨x, hx, -⟩)
      · cases h
      · cases hx
    rw [NoiseObj.assignAll, (set_eq _ _).2 h2]
    dsimp only
    rw [NoiseObj.assignAll, (set_eq _ _).1 (Or.inr h1)]
    dsimp only
    rw [NoiseObj.assignAll, (set_eq _ _).2 h3]
    rfl
  · obtain ⟨x, -, -, -, ch, hch, -⟩ := C81_channel_partial user _ _ _ h [.real 2, .real 1, .posInf] (by simp) (by simp)
    exact ⟨ch, hch⟩

/-- A model with a parameter out of range raises at a preparation, but not at a Clifford command. -/
example (n : ℕ) : (¬ ∃ out, NoiseModel.checkedCommand .depolarising .twoQubitDepolarising ⟨2, 0, 0, 0, 0, 0⟩ (.cmd (.N n .plus)) = .ok out) ∧
    ∃ out, NoiseModel.checkedCommand .depolarising .twoQubitDepolarising ⟨2, 0, 0, 0, 0, 0⟩ (.cmd .T) = .ok out := by
  refine ⟨fun h => ?_, _, rfl⟩
  have := (((C81_model _ _ _ _).1.1 h).2 2 rfl).2
  norm_num at this

end Graphix
