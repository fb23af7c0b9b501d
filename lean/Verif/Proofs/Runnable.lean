import Verif.Spec.Runnable
import Verif.Model.Pattern

/-! Helper lemmas on runnability. -/

namespace Graphix

/-- The abstract state reached after `pre`. -/
structure RunInv (inputs : List ℕ) (pre : List Command) (st : RunState) : Prop where
  active : ∀ n, n ∈ st.active ↔ Live inputs pre n
  measured : ∀ n, n ∈ st.measured ↔ n ∈ measuredIn pre
  sub : ∀ n ∈ measuredIn pre, n ∈ introduced inputs pre

theorem introduced_append (inputs : List ℕ) (pre l : List Command) :
    introduced inputs (pre ++ l) = introduced inputs pre ++ l.filterMap Command.prepared? := by
  simp [introduced, List.filterMap_append]

theorem measuredIn_append (pre l : List Command) :
    measuredIn (pre ++ l) = measuredIn pre ++ l.filterMap Command.measured? := by
  simp [measuredIn, List.filterMap_append]

theorem RunInv.init (inputs : List ℕ) : RunInv inputs [] ⟨inputs.toFinset, ∅⟩ :=
  ⟨by simp [Live, introduced, measuredIn], by simp [measuredIn], by simp [measuredIn]⟩

theorem RunState.checkActive_ok {inputs : List ℕ} {pre : List Command} {st : RunState}
    (h : RunInv inputs pre st) (n : ℕ) :
    st.checkActive n = .ok () ↔ Live inputs pre n := by
  unfold RunState.checkActive
  by_cases h1 : n ∈ st.measured
  · simp [h1, Live, (h.measured n).1 h1]
  · by_cases h2 : n ∈ st.active
    · simp [h1, h2, (h.active n).1 h2]
    · simp only [h1, h2]; simp [← h.active n, h2]

theorem RunState.checkMeasured_ok {inputs : List ℕ} {pre : List Command} {st : RunState}
    (h : RunInv inputs pre st) (d : Finset ℕ) :
    st.checkMeasured d = .ok () ↔ ∀ k ∈ d, k ∈ measuredIn pre := by
  unfold RunState.checkMeasured
  have : d ⊆ st.measured ↔ ∀ k ∈ d, k ∈ measuredIn pre :=
    ⟨fun hd k hk => (h.measured k).1 (hd hk), fun hd k hk => (h.measured k).2 (hd k hk)⟩
  rw [← this]; clear this; split <;> simp [*]

theorem except_unit_ok_or {ε : Type} (x : Except ε Unit) : x = .ok () ∨ ∃ e, x = .error e := by
  cases x with
  | ok u => left; rfl
  | error e => right; exact ⟨e, rfl⟩

/-- One step of the checker succeeds exactly when the command is allowed, and keeps the invariant. -/
theorem RunState.step_spec {inputs : List ℕ} {pre : List Command} {st : RunState}
    (h : RunInv inputs pre st) (cmd : Command) :
    (∀ st', st.step cmd = .ok st' → RunInv inputs (pre ++ [cmd]) st' ∧ Allowed inputs pre cmd) ∧
    (Allowed inputs pre cmd → ∃ st', st.step cmd = .ok st') := by
  have keep : ∀ c : Command, c.prepared? = none → c.measured? = none →
      RunInv inputs (pre ++ [c]) st := by
    intro c h1 h2
    have e1 : introduced inputs (pre ++ [c]) = introduced inputs pre := by
      simp [introduced_append, h1]
    have e2 : measuredIn (pre ++ [c]) = measuredIn pre := by simp [measuredIn_append, h2]
    exact ⟨fun n => by rw [h.active]; simp [Live, e1, e2], fun n => by rw [h.measured, e2],
      fun n hn => by rw [e1]; rw [e2] at hn; exact h.sub n hn⟩
  cases cmd with
  | N n s =>
    constructor
    · intro st' hst
      simp only [RunState.step] at hst
      split at hst
      · simp at hst
      · split at hst
        · simp at hst
        · rename_i h1 h2
          simp only [Except.ok.injEq] at hst
          subst hst
          have e1 : introduced inputs (pre ++ [.N n s]) = introduced inputs pre ++ [n] := by
            simp [introduced_append, Command.prepared?]
          have e2 : measuredIn (pre ++ [.N n s]) = measuredIn pre := by
            simp [measuredIn_append, Command.measured?]
          have hn : n ∉ introduced inputs pre := by
            intro hn
            rw [h.active] at h1
            rw [h.measured] at h2
            exact h1 ⟨hn, h2⟩
          refine ⟨⟨fun k => ?_, fun k => ?_, fun k hk => ?_⟩, hn⟩
          · simp only [Finset.mem_insert, h.active, Live, e1, e2, List.mem_append,
              List.mem_singleton]
            constructor
            · rintro (rfl | ⟨h3, h4⟩)
              · exact ⟨Or.inr rfl, fun hc => hn (h.sub _ hc)⟩
              · exact ⟨Or.inl h3, h4⟩
            · rintro ⟨h3 | h3, h4⟩
              · exact Or.inr ⟨h3, h4⟩
              · exact Or.inl h3
          · simp only [h.measured, e2]
          · rw [e1]; rw [e2] at hk; exact List.mem_append_left _ (h.sub k hk)
    · intro ha
      simp only [Allowed] at ha
      refine ⟨{ st with active := insert n st.active }, ?_⟩
      simp only [RunState.step]
      rw [if_neg, if_neg]
      · intro hm; exact ha (h.sub _ ((h.measured n).1 hm))
      · intro hm; exact ha ((h.active n).1 hm).1
  | M n m s t =>
    have hs := RunState.checkActive_ok h n
    have cd : ∀ d, Live inputs pre n →
        (st.checkDomain n d = .ok () ↔ ∀ k ∈ d, k ∈ measuredIn pre) := by
      intro d hl
      unfold RunState.checkDomain
      by_cases hd : n ∈ d
      · simp only [hd, if_true]
        constructor
        · intro h; simp at h
        · intro h'; exact absurd (h' n hd) hl.2
      · simp only [hd, if_false]; exact RunState.checkMeasured_ok h d
    constructor
    · intro st' hst
      simp only [RunState.step] at hst
      rcases except_unit_ok_or (st.checkActive n) with h1 | ⟨e, h1⟩
      · have hl := hs.1 h1
        rcases except_unit_ok_or (st.checkDomain n s) with h2 | ⟨e, h2⟩
        · rcases except_unit_ok_or (st.checkDomain n t) with h3 | ⟨e, h3⟩
          · simp only [h1, h2, h3, bind, Except.bind, pure, Except.pure, Except.ok.injEq] at hst
            subst hst
            have e1 : introduced inputs (pre ++ [.M n m s t]) = introduced inputs pre := by
              simp [introduced_append, Command.prepared?]
            have e2 : measuredIn (pre ++ [.M n m s t]) = measuredIn pre ++ [n] := by
              simp [measuredIn_append, Command.measured?]
            refine ⟨⟨fun k => ?_, fun k => ?_, fun k hk => ?_⟩, hl, (cd s hl).1 h2, (cd t hl).1 h3⟩
            · simp only [Finset.mem_erase, h.active, Live, e1, e2, List.mem_append,
                List.mem_singleton]
              tauto
            · simp only [Finset.mem_insert, h.measured, e2, List.mem_append, List.mem_singleton]
              tauto
            · rw [e1]; rw [e2] at hk
              simp only [List.mem_append, List.mem_singleton] at hk
              rcases hk with hk | rfl
              · exact h.sub k hk
              · exact hl.1
          · simp [h1, h2, h3, bind, Except.bind] at hst
        · simp [h1, h2, bind, Except.bind] at hst
      · simp [h1, bind, Except.bind] at hst
    · rintro ⟨hl, h2, h3⟩
      refine ⟨⟨st.active.erase n, insert n st.measured⟩, ?_⟩
      simp only [RunState.step, hs.2 hl, (cd s hl).2 h2, (cd t hl).2 h3]; rfl
  | E u v =>
    have hu := RunState.checkActive_ok h u
    have hv := RunState.checkActive_ok h v
    constructor
    · intro st' hst
      simp only [RunState.step] at hst
      rcases except_unit_ok_or (st.checkActive u) with h1 | ⟨e, h1⟩
      · rcases except_unit_ok_or (st.checkActive v) with h2 | ⟨e, h2⟩
        · simp only [h1, h2, bind, Except.bind, pure, Except.pure, Except.ok.injEq] at hst
          subst hst
          exact ⟨keep _ rfl rfl, hu.1 h1, hv.1 h2⟩
        · simp [h1, h2, bind, Except.bind] at hst
      · simp [h1, bind, Except.bind] at hst
    · rintro ⟨h1, h2⟩
      exact ⟨st, by simp only [RunState.step, hu.2 h1, hv.2 h2]; rfl⟩
  | C n c =>
    have hu := RunState.checkActive_ok h n
    constructor
    · intro st' hst
      simp only [RunState.step] at hst
      rcases except_unit_ok_or (st.checkActive n) with h1 | ⟨e, h1⟩
      · simp only [h1, bind, Except.bind, pure, Except.pure, Except.ok.injEq] at hst
        subst hst
        exact ⟨keep _ rfl rfl, hu.1 h1⟩
      · simp [h1, bind, Except.bind] at hst
    · intro h1
      exact ⟨st, by simp only [RunState.step, hu.2 h1]; rfl⟩
  | X n d =>
    have hu := RunState.checkActive_ok h n
    have hv := RunState.checkMeasured_ok h d
    constructor
    · intro st' hst
      simp only [RunState.step] at hst
      rcases except_unit_ok_or (st.checkActive n) with h1 | ⟨e, h1⟩
      · rcases except_unit_ok_or (st.checkMeasured d) with h2 | ⟨e, h2⟩
        · simp only [h1, h2, bind, Except.bind, pure, Except.pure, Except.ok.injEq] at hst
          subst hst
          exact ⟨keep _ rfl rfl, hu.1 h1, hv.1 h2⟩
        · simp [h1, h2, bind, Except.bind] at hst
      · simp [h1, bind, Except.bind] at hst
    · rintro ⟨h1, h2⟩
      exact ⟨st, by simp only [RunState.step, hu.2 h1, hv.2 h2]; rfl⟩
  | Z n d =>
    have hu := RunState.checkActive_ok h n
    have hv := RunState.checkMeasured_ok h d
    constructor
    · intro st' hst
      simp only [RunState.step] at hst
      rcases except_unit_ok_or (st.checkActive n) with h1 | ⟨e, h1⟩
      · rcases except_unit_ok_or (st.checkMeasured d) with h2 | ⟨e, h2⟩
        · simp only [h1, h2, bind, Except.bind, pure, Except.pure, Except.ok.injEq] at hst
          subst hst
          exact ⟨keep _ rfl rfl, hu.1 h1, hv.1 h2⟩
        · simp [h1, h2, bind, Except.bind] at hst
      · simp [h1, bind, Except.bind] at hst
    · rintro ⟨h1, h2⟩
      exact ⟨st, by simp only [RunState.step, hu.2 h1, hv.2 h2]; rfl⟩
  | S n d =>
    refine ⟨fun st' hst => ?_, fun _ => ⟨st, rfl⟩⟩
    simp only [RunState.step, Except.ok.injEq] at hst
    subst hst; exact ⟨keep _ rfl rfl, trivial⟩
  | T =>
    refine ⟨fun st' hst => ?_, fun _ => ⟨st, rfl⟩⟩
    simp only [RunState.step, Except.ok.injEq] at hst
    subst hst; exact ⟨keep _ rfl rfl, trivial⟩

theorem RunState.run_spec {inputs : List ℕ} (l : List Command) :
    ∀ {pre : List Command} {st : RunState}, RunInv inputs pre st →
    ((∃ st', st.run l = .ok st') ↔
      ∀ p cmd post, l = p ++ cmd :: post → Allowed inputs (pre ++ p) cmd) := by
  induction l with
  | nil => intro pre st h; simp [RunState.run]
  | cons c l ih =>
    intro pre st h
    obtain ⟨h1, h2⟩ := RunState.step_spec h c
    constructor
    · rintro ⟨st', hst⟩ p cmd post hl
      simp only [RunState.run] at hst
      cases hs : st.step c with
      | error e => simp [hs, bind, Except.bind] at hst
      | ok s1 =>
        simp only [hs, bind, Except.bind] at hst
        obtain ⟨hi, ha⟩ := h1 s1 hs
        cases p with
        | nil => simp at hl; rw [← hl.1]; simpa using ha
        | cons c' p =>
          simp only [List.cons_append, List.cons.injEq] at hl
          have := (ih hi).1 ⟨st', hst⟩ p cmd post hl.2
          rw [← hl.1]; simpa using this
    · intro hall
      obtain ⟨s1, hs⟩ := h2 (by simpa using hall [] c l rfl)
      obtain ⟨hi, -⟩ := h1 s1 hs
      obtain ⟨st', hst⟩ := (ih hi).2 (fun p cmd post hl => by
        have := hall (c :: p) cmd post (by simp [hl])
        simpa using this)
      exact ⟨st', by simp only [RunState.run, hs, bind, Except.bind, hst]⟩

theorem RunState.run_inv {inputs : List ℕ} (l : List Command) :
    ∀ {pre : List Command} {st st' : RunState}, RunInv inputs pre st → st.run l = .ok st' →
    RunInv inputs (pre ++ l) st' := by
  induction l with
  | nil => intro pre st st' h h'; simp [RunState.run] at h'; subst h'; simpa using h
  | cons c l ih =>
    intro pre st st' h hst
    simp only [RunState.run] at hst
    cases hs : st.step c with
    | error e => simp [hs, bind, Except.bind] at hst
    | ok s1 =>
      simp only [hs, bind, Except.bind] at hst
      have := ih ((RunState.step_spec h c).1 s1 hs).1 hst
      simpa using this

theorem checkRunnability_iff (p : Pattern) :
    p.checkRunnability = .ok () ↔ Runnable p.inputs p.seq := by
  have h := RunState.run_spec (inputs := p.inputs) p.seq (RunInv.init p.inputs)
  have e : p.checkRunnability = .ok () ↔ ∃ st', RunState.run ⟨p.inputs.toFinset, ∅⟩ p.seq = .ok st' := by
    unfold Pattern.checkRunnability
    cases RunState.run ⟨p.inputs.toFinset, ∅⟩ p.seq with
    | error e => simp [bind, Except.bind]
    | ok s => simp [bind, Except.bind, pure, Except.pure]
  rw [e, h]; simp [Runnable]

theorem Runnable.prefix {inputs : List ℕ} {l l' : List Command} (h : Runnable inputs (l ++ l')) :
    Runnable inputs l := by
  intro pre cmd post hl
  exact h pre cmd (post ++ l') (by simp [hl])

theorem Runnable.last {inputs : List ℕ} {l : List Command} {c : Command}
    (h : Runnable inputs (l ++ [c])) : Allowed inputs l c := h l c [] rfl

theorem Runnable.snoc {inputs : List ℕ} {l : List Command} {c : Command}
    (h : Runnable inputs l) (hc : Allowed inputs l c) : Runnable inputs (l ++ [c]) := by
  intro pre cmd post hl
  rcases List.eq_nil_or_concat post with rfl | ⟨post', x, rfl⟩
  · have := List.append_inj' hl rfl
    obtain ⟨rfl, h2⟩ := this
    simp at h2; rw [← h2]; exact hc
  · have h2 : l ++ [c] = (pre ++ cmd :: post') ++ [x] := by simpa using hl
    have := List.append_inj' h2 rfl
    exact h pre cmd post' this.1

theorem runnable_snoc_iff {inputs : List ℕ} {l : List Command} {c : Command} :
    Runnable inputs (l ++ [c]) ↔ Runnable inputs l ∧ Allowed inputs l c :=
  ⟨fun h => ⟨h.prefix, h.last⟩, fun h => h.1.snoc h.2⟩

theorem runnable_nil (inputs : List ℕ) : Runnable inputs [] := by
  intro pre cmd post h; simp at h

/-- In a runnable sequence only introduced nodes are measured. -/
theorem Runnable.measured_sub {inputs : List ℕ} {l : List Command} (h : Runnable inputs l) :
    ∀ n ∈ measuredIn l, n ∈ introduced inputs l := by
  obtain ⟨st, hst⟩ := (RunState.run_spec (inputs := inputs) l (RunInv.init inputs)).2
    (by simpa [Runnable] using h)
  have := (RunState.run_inv l (RunInv.init inputs) hst).sub
  simpa using this

theorem Runnable.introduced_nodup {inputs : List ℕ} (hi : inputs.Nodup) {l : List Command}
    (h : Runnable inputs l) : (introduced inputs l).Nodup := by
  induction l using List.reverseRecOn with
  | nil => simpa [introduced] using hi
  | append_singleton l c ih =>
    have h1 := ih h.prefix
    rw [introduced_append]
    cases hp : c.prepared? with
    | none => simpa [hp] using h1
    | some n =>
      cases c <;> simp [Command.prepared?] at hp
      subst hp
      have := h.last
      simp only [Allowed] at this
      simp only [List.filterMap_cons, Command.prepared?, List.filterMap_nil]
      exact List.nodup_append.2 ⟨h1, by simp, by
        intro a ha b hb; simp at hb; subst hb; rintro rfl; exact this ha⟩

theorem Runnable.measured_nodup {inputs : List ℕ} {l : List Command}
    (h : Runnable inputs l) : (measuredIn l).Nodup := by
  induction l using List.reverseRecOn with
  | nil => simp [measuredIn]
  | append_singleton l c ih =>
    have h1 := ih h.prefix
    rw [measuredIn_append]
    cases hp : c.measured? with
    | none => simpa [hp] using h1
    | some n =>
      cases c <;> simp [Command.measured?] at hp
      subst hp
      have := h.last
      simp only [Allowed, Live] at this
      simp only [List.filterMap_cons, Command.measured?, List.filterMap_nil]
      exact List.nodup_append.2 ⟨h1, by simp, by
        intro a ha b hb; simp at hb; subst hb; rintro rfl; exact this.1.2 ha⟩

end Graphix
