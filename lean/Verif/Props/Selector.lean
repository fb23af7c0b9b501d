import Verif.Model.Noise
import Verif.Props.Simulator

/-!
# Property C46: branch selectors honour their contract
-/

namespace Graphix

/-- **C46** A constant selector returns its constant. -/
theorem C46_const (o : Bool) (n : ℕ) (p0 rand : ℝ) (coin : Bool) :
    (Selector.const o).measure n p0 rand coin = .ok o := rfl

/-- **C46** A fixed selector returns the prescribed outcome of a listed qubit, whatever its default. -/
theorem C46_fixed_listed (results : PyDict ℕ Bool) (default : Option Selector) (n : ℕ) (o : Bool)
    (h : results.get? n = some o) (p0 rand : ℝ) (coin : Bool) :
    (Selector.fixed results default).measure n p0 rand coin = .ok o := by
  cases default <;> simp [Selector.measure, h]

/-- **C46** For a qubit that is not listed, it defers to its default, or raises `ValueError` without default. -/
theorem C46_fixed_unlisted (results : PyDict ℕ Bool) (n : ℕ) (h : results.get? n = none)
    (p0 rand : ℝ) (coin : Bool) :
    (∀ d, (Selector.fixed results (some d)).measure n p0 rand coin = d.measure n p0 rand coin) ∧
    (Selector.fixed results none).measure n p0 rand coin = .error .valueError := by
  constructor
  · intro d; simp [Selector.measure, h]
  · simp [Selector.measure, h]

/-- **C46** A random selector that computes the probability gives outcome 0 exactly when the draw, uniform in
`[0, 1)`, is at most the probability of 0; so, of an impossible outcome 1 (`p0 = 1`), never. -/
theorem C46_random (n : ℕ) (p0 rand : ℝ) (coin : Bool) :
    ((Selector.random true).measure n p0 rand coin = .ok false ↔ rand ≤ p0) ∧
    ((Selector.random true).measure n p0 rand coin = .ok true ↔ p0 < rand) ∧
    (rand < 1 → p0 = 1 → (Selector.random true).measure n p0 rand coin = .ok false) ∧
    (Selector.random false).measure n p0 rand coin = .ok coin := by
  refine ⟨?_, ?_, ?_, rfl⟩ <;> simp only [Selector.measure, Except.ok.injEq, decide_eq_false_iff_not, decide_eq_true_eq]
  · simp
  · rintro h rfl; simpa using h.le

/-- A selector never fails when its chain of defaults ends in a random or constant selector. -/
def Selector.Total : Selector → Prop
  | .random _ => True
  | .const _ => True
  | .fixed _ none => False
  | .fixed _ (some d) => Total d

/-- **C46** A selector raises exactly when the chain of defaults ends with a fixed selector and no selector of the
chain lists the qubit. -/
theorem C46_total (s : Selector) (h : s.Total) (n : ℕ) (p0 rand : ℝ) (coin : Bool) :
    ∃ o, s.measure n p0 rand coin = .ok o := by
  match s, h with
  | .random true, _ => exact ⟨_, rfl⟩
  | .random false, _ => exact ⟨_, rfl⟩
  | .const r, _ => exact ⟨_, rfl⟩
  | .fixed results (some d), h =>
    cases hr : results.get? n with
    | none => rw [(C46_fixed_unlisted results n hr p0 rand coin).1]; exact C46_total d h n p0 rand coin
    | some o => exact ⟨o, C46_fixed_listed results _ n o hr p0 rand coin⟩

/-- The outcomes recorded by a run are those its selector returned. -/
theorem step_results {env : SimEnv} {k : ℕ} {st st' : SimState} {c : Command} (h : st.step env k c = .ok st') :
    (c.measured? = none ∧ st'.results = st.results) ∨
    ∃ n o p0, c.measured? = some n ∧ env.sel st.results n p0 = .ok o ∧ st'.results = st.results.set n o := by
  have hs : ∀ n op, st.applySingle env k n op = .ok st' → st'.results = st.results := by
    intro n op h
    unfold SimState.applySingle at h
    cases h1 : st.idx.index n with
    | error e => simp only [h1, bind, Except.bind] at h; cases h
    | ok i =>
      simp only [h1, bind, Except.bind] at h
      cases h2 : st.sv.evolveSingle (env.ordOp k st.sv.nqubit i) op i with
      | error e => simp only [h2] at h; cases h
      | ok sv => simp only [h2, pure, Except.pure] at h; obtain rfl := Except.ok.inj h; rfl
  have hp : ∀ (n : ℕ) (d : Finset ℕ) (U : Mat2), (do
        if ← SimState.checkDomain st.results d then st.applySingle env k n U else return st) = .ok st' →
      st'.results = st.results := by
    intro n d U h
    cases h1 : SimState.checkDomain st.results d with
    | error e => simp only [h1, bind, Except.bind] at h; cases h
    | ok b =>
      simp only [h1, bind, Except.bind] at h
      cases b
      · simp only [Bool.false_eq_true, if_false, pure, Except.pure] at h; obtain rfl := Except.ok.inj h; rfl
      · exact hs n U h
  cases c with
  | N n s => left; obtain rfl := Except.ok.inj h; exact ⟨rfl, rfl⟩
  | T => left; obtain rfl := Except.ok.inj h; exact ⟨rfl, rfl⟩
  | S n d => cases h
  | C n c => left; exact ⟨rfl, hs _ _ h⟩
  | X n d => left; exact ⟨rfl, hp _ _ _ h⟩
  | Z n d => left; exact ⟨rfl, hp _ _ _ h⟩
  | E u v =>
    left
    refine ⟨rfl, ?_⟩
    simp only [SimState.step, SimState.entangleNodes] at h
    cases h1 : st.idx.index u with
    | error e => simp only [h1, bind, Except.bind] at h; cases h
    | ok i =>
      cases h2 : st.idx.index v with
      | error e => simp only [h1, h2, bind, Except.bind] at h; cases h
      | ok j =>
        simp only [h1, h2, bind, Except.bind] at h
        cases h3 : st.sv.entangle (env.ordCz k st.sv.nqubit) i j with
        | error e => simp only [h3] at h; cases h
        | ok sv => simp only [h3, pure, Except.pure] at h; obtain rfl := Except.ok.inj h; rfl
  | M n m s t =>
    right
    simp only [SimState.step] at h
    cases h1 : SimState.describeMeasurement st.results m s t with
    | error e => simp only [h1, bind, Except.bind] at h; cases h
    | ok d =>
      simp only [h1, bind, Except.bind] at h
      cases h2 : st.measureNode env k n d with
      | error e => simp only [h2] at h; cases h
      | ok x =>
        obtain ⟨st1, o⟩ := x
        simp only [h2, pure, Except.pure] at h
        obtain rfl := Except.ok.inj h
        unfold SimState.measureNode at h2
        cases g1 : st.idx.index n with
        | error e => simp only [g1, bind, Except.bind] at h2; cases h2
        | ok loc =>
          simp only [g1, bind, Except.bind] at h2
          cases g2 : st.sv.expectationSingle (env.ordExp k st.sv.nqubit loc) (measureOperator d false) loc with
          | error e => simp only [g2] at h2; cases h2
          | ok v =>
            simp only [g2] at h2
            by_cases hv : v.im ≠ 0
            · rw [if_pos hv] at h2; cases h2
            · rw [if_neg hv] at h2
              simp only [pure, Except.pure] at h2
              cases g3 : env.sel st.results n v.re with
              | error e => simp only [g3] at h2; cases h2
              | ok o' =>
                simp only [g3] at h2
                cases g4 : st.sv.projectQubit (env.ordProj k st.sv.nqubit loc) (measureOperator d o') loc with
                | error e => simp only [g4] at h2; cases h2
                | ok sv =>
                  simp only [g4] at h2
                  cases g5 : st.idx.remove n with
                  | error e => simp only [g5] at h2; cases h2
                  | ok idx =>
                    simp only [g5] at h2
                    have := Except.ok.inj h2
                    rw [Prod.mk.injEq] at this
                    obtain ⟨rfl, rfl⟩ := this
                    exact ⟨n, o', v.re, rfl, g3, rfl⟩

theorem loop_results {env : SimEnv} : ∀ (l : List Command) (k : ℕ) (st st' : SimState),
    SimState.loop env k l st = .ok st' → ∀ n o, st'.results.get? n = some o →
      st.results.get? n = some o ∨ ∃ rs p0, env.sel rs n p0 = .ok o
  | [], k, st, st', h, n, o, ho => by obtain rfl := Except.ok.inj h; exact Or.inl ho
  | c :: l, k, st, st', h, n, o, ho => by
    unfold SimState.loop at h
    cases h1 : st.step env k c with
    | error e => simp only [h1, bind, Except.bind] at h; cases h
    | ok st1 =>
      simp only [h1, bind, Except.bind] at h
      rcases loop_results l (k + 1) st1 st' h n o ho with h2 | h2
      · rcases step_results h1 with ⟨-, h3⟩ | ⟨m, o', p0, -, h4, h5⟩
        · rw [h3] at h2; exact Or.inl h2
        · rw [h5, PyDict.get?_set] at h2
          by_cases hm : m = n
          · subst hm
            rw [if_pos rfl, Option.some.injEq] at h2
            subst h2
            exact Or.inr ⟨_, _, h4⟩
          · rw [if_neg hm] at h2; exact Or.inl h2
      · exact Or.inr h2

/-- The environment of a run with a given selector; `rand` and `coin` give the draws of the generator at the
measurement of each node, given the outcomes so far. -/
noncomputable def SimEnv.withSelector (env : SimEnv) (s : Selector) (rand : PyDict ℕ Bool → ℕ → ℝ)
    (coin : PyDict ℕ Bool → ℕ → Bool) : SimEnv :=
  { env with sel := fun rs n p0 => s.measure n p0 (rand rs n) (coin rs n) }

/-- The outcome that a selector prescribes for a node, if it does so deterministically. -/
def Selector.prescribed : Selector → ℕ → Option Bool
  | .random _, _ => none
  | .const o, _ => some o
  | .fixed results none, n => results.get? n
  | .fixed results (some d), n =>
    match results.get? n with
    | some o => some o
    | none => prescribed d n

theorem Selector.measure_prescribed (s : Selector) (n : ℕ) (o : Bool) (h : s.prescribed n = some o) (p0 rand : ℝ) (coin : Bool) :
    s.measure n p0 rand coin = .ok o := by
  match s, h with
  | .const r, h => simp only [prescribed, Option.some.injEq] at h; subst h; rfl
  | .fixed results none, h => exact C46_fixed_listed _ _ _ _ h _ _ _
  | .fixed results (some d), h =>
    cases hr : results.get? n with
    | none =>
      rw [(C46_fixed_unlisted results n hr p0 rand coin).1]
      simp only [prescribed, hr] at h
      exact measure_prescribed d n o h p0 rand coin
    | some o' =>
      simp only [prescribed, hr, Option.some.injEq] at h
      subst h
      exact C46_fixed_listed results _ n _ hr p0 rand coin

/-- **C46** The branch taken by the simulator is the one selected: a complete run of a pattern records, for every
measured node for which the selector prescribes an outcome, that outcome (for `r` the branch recorded, which by
`C10_run` is the branch whose state is computed). -/
theorem C46_branch_taken (env : SimEnv) (s : Selector) (rand : PyDict ℕ Bool → ℕ → ℝ) (coin : PyDict ℕ Bool → ℕ → Bool)
    (p : Pattern) (data : InputData) (plusObj : Bool) (junk : ℕ → Buf) (st : SimState)
    (h : simulate (env.withSelector s rand coin) p data plusObj junk = .ok st) (n : ℕ) (o : Bool)
    (hn : s.prescribed n = some o) (o' : Bool) (ho' : st.results.get? n = some o') : o' = o := by
  unfold simulate at h
  cases h1 : prepareInput p data plusObj junk with
  | error e => simp only [h1, bind, Except.bind] at h; cases h
  | ok sv =>
    simp only [h1, bind, Except.bind] at h
    cases h2 : p.checkRunnability with
    | error e => simp only [h2] at h; cases h
    | ok u =>
      simp only [h2] at h
      cases h3 : SimState.loop (env.withSelector s rand coin) 0 p.seq ⟨sv, NodeIndex.clear.extend p.inputs, []⟩ with
      | error e => simp only [h3] at h; cases h
      | ok st1 =>
        simp only [h3] at h
        have h4 : st.results = st1.results := by
          unfold SimState.finalize at h
          cases g1 : SimState.indices st1.idx p.outputs with
          | error e => simp only [g1, bind, Except.bind] at h; cases h
          | ok perm =>
            simp only [g1, bind, Except.bind] at h
            cases g2 : st1.sv.permute perm with
            | error e => simp only [g2] at h; cases h
            | ok sv' => simp only [g2, pure, Except.pure] at h; obtain rfl := Except.ok.inj h; rfl
        rw [h4] at ho'
        rcases loop_results p.seq 0 _ st1 h3 n o' ho' with h5 | ⟨rs, p0, h5⟩
        · simp at h5
        · simp only [SimEnv.withSelector] at h5
          rw [s.measure_prescribed n o hn] at h5
          exact (Except.ok.inj h5).symm

/-- **C46** with C10: a complete run with a fixed selector listing every measured node computes the state of the
listed branch. -/
theorem C46_branch_state (env : SimEnv) (results : PyDict ℕ Bool) (d : Option Selector) (rand : PyDict ℕ Bool → ℕ → ℝ)
    (coin : PyDict ℕ Bool → ℕ → Bool) (p : Pattern)
    (henv : (env.withSelector (.fixed results d) rand coin).Ok p.seq) (hp : p.OutputsOk)
    (hrun : p.checkRunnability = .ok ()) (hS : ∀ n d, Command.S n d ∉ p.seq) (data : InputData) (plusObj : Bool)
    (hd : data.Ok p.inputs.length) (hplus : plusObj = true → data = .state PlanarState.plus) (junk : ℕ → Buf)
    (st : SimState) (h : simulate (env.withSelector (.fixed results d) rand coin) p data plusObj junk = .ok st)
    (r : ℕ → Bool) (hr : ∀ n ∈ measuredIn p.seq, results.get? n = some (r n)) :
    ∃ c : ℂ, absState p.outputs st.sv.psi = c • semCmds r p.seq (data.toState p.inputs) := by
  rcases C10_run _ p henv hp hrun hS data plusObj hd hplus junk with ⟨st', h1, -, -, -, h5, h6⟩ | ⟨e, h1, -⟩
  · rw [h1] at h
    obtain rfl := Except.ok.inj h
    refine (h6 r ?_).2.2
    intro n o ho
    have hm := (h5 n).1 ⟨o, ho⟩
    have hpr : (Selector.fixed results d).prescribed n = some (r n) := by
      cases d <;> simp [Selector.prescribed, hr n hm]
    exact (C46_branch_taken env _ rand coin p data plusObj junk st' h1 n _ hpr o ho).symm
  · rw [h1] at h; cases h

/-- Non-trivial instances: a fixed selector with a default, on a listed and on an unlisted qubit. -/
example (p0 rand : ℝ) (coin : Bool) :
    (Selector.fixed [(3, true)] (some (.const false))).measure 3 p0 rand coin = .ok true ∧
    (Selector.fixed [(3, true)] (some (.const false))).measure 4 p0 rand coin = .ok false ∧
    (Selector.fixed [(3, true)] none).measure 4 p0 rand coin = .error .valueError := ⟨rfl, rfl, rfl⟩

/-- A run with a fixed selector: on the pattern that measures its only input, one of the two branches at least
can be forced (for `|+⟩` measured in X, the other one has probability zero and raises). -/
example : ∃ o st, simulate (exampleEnv.withSelector (.fixed [(0, o)] none) (fun _ _ => 0) (fun _ _ => false))
    ((Pattern.empty [0]).extend [.M 0 (.pauli ⟨.X, .plus⟩) ∅ ∅]) (.state PlanarState.plus) false (fun _ _ => 7) = .ok st ∧
    ∀ o', st.results.get? 0 = some o' → o' = o := by
  have hR : Runnable [0] [.M 0 (.pauli ⟨.X, .plus⟩) ∅ ∅] :=
    (checkRunnability_iff ((Pattern.empty [0]).extend [.M 0 (.pauli ⟨.X, .plus⟩) ∅ ∅])).1 rfl
  have e := C08_count [0] [.M 0 (.pauli ⟨.X, .plus⟩) ∅ ∅]
  have ho := C08_outputs [0] (by simp) _ hR
  have hok : ((Pattern.empty [0]).extend [.M 0 (.pauli ⟨.X, .plus⟩) ∅ ∅]).OutputsOk := by
    refine ⟨by rw [e.2.1]; simp, by rw [ho]; decide, fun n => ?_⟩
    rw [ho, e.1, e.2.1]; simp [Live]
  have run : ∀ o, _ := fun o => C10_run (exampleEnv.withSelector (.fixed [(0, o)] none) (fun _ _ => 0) (fun _ _ => false))
    ((Pattern.empty [0]).extend [.M 0 (.pauli ⟨.X, .plus⟩) ∅ ∅])
    { plus := by intro k n s h; rw [e.1] at h; exact absurd (List.mem_of_getElem? h) (by simp)
      cz := exampleEnv_ok.cz, op := exampleEnv_ok.op, exp := exampleEnv_ok.exp, proj := exampleEnv_ok.proj } hok
    rfl (by rw [e.1]; simp) (.state PlanarState.plus) false trivial (by simp) (fun _ _ => 7)
  have fin : ∀ o st, simulate (exampleEnv.withSelector (.fixed [(0, o)] none) (fun _ _ => 0) (fun _ _ => false))
      ((Pattern.empty [0]).extend [.M 0 (.pauli ⟨.X, .plus⟩) ∅ ∅]) (.state PlanarState.plus) false (fun _ _ => 7) = .ok st →
      ∀ o', st.results.get? 0 = some o' → o' = o := fun o st h o' ho' =>
    C46_branch_taken _ _ _ _ _ _ _ _ st h 0 o rfl o' ho'
  rcases run false with ⟨st, h, -⟩ | ⟨err, h, hf⟩
  · exact ⟨false, st, h, fin _ _ h⟩
  rcases run true with ⟨st, h', -⟩ | ⟨err', h', hf'⟩
  · exact ⟨true, st, h', fin _ _ h'⟩
  exfalso
  have B : stateNormSq [0] (InputData.toState [0] (.state PlanarState.plus)) = 1 := by
    obtain ⟨sv, -, -, h3, h4⟩ := init_ok [0] (.state PlanarState.plus) trivial
    rw [← h3, stateNormSq_abs _ (by simp)]; exact h4
  have key : ∀ o err, SelFails (exampleEnv.withSelector (.fixed [(0, o)] none) (fun _ _ => 0) (fun _ _ => false)) [0]
      (InputData.toState [0] (.state PlanarState.plus)) [.M 0 (.pauli ⟨.X, .plus⟩) ∅ ∅] err →
      ∃ p0 : ℝ, (if o then 1 - p0 else p0) ≤ 2 * atol ∧
        p0 = branchProb [0] (InputData.toState [0] (.state PlanarState.plus)) [.M 0 (.pauli ⟨.X, .plus⟩) ∅ ∅] (fun _ => false) := by
    rintro o err ⟨pre, n, m, s, t, post, hseq, rs, p0, -, -, hrs, hpr, hsel⟩
    have hpre : pre = [] := by
      cases pre with
      | nil => rfl
      | cons a l =>
        exfalso
        have := congrArg List.length hseq
        simp at this
    subst hpre
    rw [List.nil_append, List.cons.injEq, Command.M.injEq] at hseq
    obtain ⟨⟨rfl, rfl, rfl, rfl⟩, rfl⟩ := hseq
    refine ⟨p0, ?_, ?_⟩
    · rcases hsel with hsel | ⟨o', hsel, -, hle⟩
      · cases hsel
      · obtain rfl := Except.ok.inj hsel
        exact hle
    · have := hpr (fun _ => false) (by
        intro j o' hj
        exact absurd ((hrs j).1 ⟨o', hj⟩) (by simp [measuredIn]))
      rw [List.nil_append] at this
      rw [this]
      have b1 : branchProb [0] (InputData.toState [0] (.state PlanarState.plus)) [] (fun _ => false) = 1 := by
        unfold branchProb
        rw [← B]
        exact stateNormSq_mem (nodup_liveList _ _) (by simp) (fun n => by rw [mem_liveList]; simp [Live, introduced, measuredIn]) _
      rw [b1]; simp
  obtain ⟨p0, h1, h2⟩ := key false err hf
  obtain ⟨p1, h3, h4⟩ := key true err' hf'
  rw [← h2] at h4
  subst h4
  simp only [Bool.false_eq_true, if_false, if_true, atol] at h1 h3
  norm_num at h1 h3
  linarith

end Graphix
