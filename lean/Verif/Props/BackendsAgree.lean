import Verif.Props.DensityNoise
import Verif.Props.SimHistory

/-!
# Property C57: the two backends agree; examples
-/

namespace Graphix

theorem recordAll_recordList (draw : ℕ → ℝ) (out : ℕ → Bool) (ns : List ℕ) : (recordAll none draw out ns).1 = recordList out ns := by
  induction ns using List.reverseRecOn with
  | nil => rfl
  | append_singleton ns n ih => rw [recordAll_append, recordList_append, ih]; rfl

theorem eraseNoise_map (l : List Command) : eraseNoise (l.map .cmd) = l := by
  induction l with
  | nil => rfl
  | cons a l ih => show a :: eraseNoise (l.map .cmd) = _; rw [ih]

theorem noisyProb_pure (env : DMEnv) (inputs : List ℕ) (ψ : QState) (pre : List Command) (r out : ℕ → Bool)
    (h : ∀ n ∈ measuredIn pre, out n = r n) :
    noisyProb env inputs (ketBra ψ) (pre.map .cmd) r out = (branchProb inputs ψ pre r : ℂ) := by
  unfold noisyProb
  rw [densCmds_congr env.chan r (out := out) (out' := r) (by rw [eraseNoise_map]; exact h), densCmds_pure, traceOn_ketBra,
    eraseNoise_map]
  rfl

/-- **C57** With the same branch selector, if the runs on the two backends reach the end, they record the same outcomes, and the density
matrix is `|ψ⟩⟨ψ|`, where `ψ` is the state vector. -/
theorem C57_same_selector (env : SimEnv) (env' : DMEnv) (hsel : env.sel = env'.sel) (p : Pattern) (henv : env.Ok p.seq)
    (hp : p.OutputsOk) (hrun : p.checkRunnability = .ok ()) (hS : ∀ n d, Command.S n d ∉ p.seq) (hE : ∀ u, Command.E u u ∉ p.seq)
    (data : InputData) (plusObj : Bool) (hd : data.Ok p.inputs.length)
    (hplus : plusObj = true → data = .state PlanarState.plus) (junk : ℕ → Buf) (sv : SimState) (dm : DMState)
    (h1 : simulate env p data plusObj junk = .ok sv) (h2 : simulateDM env' p none (.pure data) = .ok dm) :
    sv.results = dm.results ∧ absDens p.outputs dm.dm.rho = ketBra (absState p.outputs sv.sv.psi) := by
  have key : sv.results = dm.results := by
    obtain ⟨out1, g1, g2⟩ := C10_history env p henv hp hrun hS data plusObj hd hplus junk sv h1
    obtain ⟨seq, e1, e2, h⟩ := C57_library env' p hp hrun hS hE none (by simp) (.pure data) hd
    obtain rfl := Except.ok.inj e1
    rcases h with ⟨st, out2, f1, f2⟩ | ⟨e, f1, -⟩
    swap
    · rw [h2] at f1; cases f1
    obtain rfl := Except.ok.inj (h2.symm.trans f1)
    obtain ⟨-, -, -, -, f3, f4, -⟩ := f2
    rw [g1, f3, e2]
    show _ = (recordAll none env'.draw out2 (measuredIn p.seq)).1
    rw [recordAll_recordList]
    apply recordList_congr
    have hind : ∀ pre post : List Command, p.seq = pre ++ post → ∀ n ∈ measuredIn pre, out1 n = out2 n := by
      intro pre
      induction pre using List.reverseRecOn with
      | nil => intro post _ n hn; simp [measuredIn] at hn
      | append_singleton pre c ih =>
        intro post hpost n hn
        have ih' := ih (c :: post) (by rw [hpost]; simp)
        rw [measuredIn_append] at hn
        rcases List.mem_append.1 hn with hn | hn
        · exact ih' n hn
        cases c with
        | M n' m s t =>
          have : n = n' := by simpa [Command.measured?] using hn
          subst this
          obtain ⟨p0, a0, a1, a2, a3⟩ := g2 pre n m s t post (by rw [hpost]; simp)
          obtain ⟨q0, b0, b1, b2, b3⟩ := f4 (pre.map .cmd) n m s t (post.map .cmd) (by rw [hpost]; simp)
          rw [eraseNoise_map] at b2 b3
          have hR := (checkRunnability_iff p).1 hrun pre (.M n m s t) post (by rw [hpost]; simp)
          have hnm : n ∉ measuredIn pre := hR.1.2
          set r : ℕ → Bool := Function.update out1 n false with hr
          have hr1 : ∀ k ∈ measuredIn pre, r k = out1 k := fun k hk =>
            Function.update_of_ne (by rintro rfl; exact hnm hk) _ _
          obtain ⟨c1, c2⟩ := a2 r hr1
          have hag : Agrees (recordAll none env'.draw out2 (measuredIn pre)).1 r := by
            rw [recordAll_recordList, agrees_recordList]
            intro k hk; rw [hr1 k hk, ih' k hk]
          obtain ⟨d1, d2⟩ := b2 r hag
          have d3 := d2 false
          have hq : noisyProb env' p.inputs (ketBra (data.toState p.inputs)) (pre.map .cmd) r out2 =
              (branchProb p.inputs (data.toState p.inputs) pre r : ℂ) :=
            noisyProb_pure _ _ _ _ _ _ (fun k hk => by rw [hr1 k hk, ih' k hk])
          have hq' : noisyProb env' p.inputs (ketBra (data.toState p.inputs)) (pre.map .cmd ++ [.cmd (.M n m s t)]) r
              (Function.update out2 n false) = (branchProb p.inputs (data.toState p.inputs) (pre ++ [.M n m s t]) r : ℂ) := by
            rw [show pre.map CmdOrNoise.cmd ++ [.cmd (.M n m s t)] = (pre ++ [Command.M n m s t]).map .cmd by simp]
            apply noisyProb_pure
            intro k hk
            rw [measuredIn_append] at hk
            rcases List.mem_append.1 hk with hk | hk
            · have hkn : k ≠ n := fun hkn => hnm (hkn ▸ hk)
              rw [Function.update_of_ne hkn, hr1 k hk, ih' k hk]
            · have : k = n := by simpa [Command.measured?] using hk
              subst this
              rw [hr, Function.update_self, Function.update_self]
          have e3 : (DMData.pure data).toDens p.inputs = ketBra (data.toState p.inputs) := rfl
          rw [e3, hq, hq', c2] at d3
          have hrn : r n = false := by rw [hr, Function.update_self]
          rw [hrn] at d3
          simp only [Bool.false_eq_true, if_false] at d3
          have hpq : p0 = q0 := by
            have : p0 * branchProb p.inputs (data.toState p.inputs) pre r = q0 * branchProb p.inputs (data.toState p.inputs) pre r := by
              exact_mod_cast d3
            exact mul_right_cancel₀ c1.ne' this
          have hrec : (recordAll none env'.draw out2 (measuredIn pre)).1 = recordList out1 (measuredIn pre) := by
            rw [recordAll_recordList]; exact recordList_congr (fun k hk => (ih' k hk).symm)
          have b3' : env'.sel (recordAll none env'.draw out2 (measuredIn pre)).1 n q0 = .ok (out2 n) := b3
          rw [hrec, ← hpq, ← hsel, a3] at b3'
          exact Except.ok.inj b3'
        | _ => simp [Command.measured?] at hn
    exact hind p.seq [] (by simp)
  exact ⟨key, C57_backends_agree env env' p henv hp hrun hS hE data plusObj hd hplus junk sv dm h1 h2 (fun n => by rw [key])⟩

/-- A pattern that starts with `E` on twice the same input. -/
theorem self_entangle_fails (env : DMEnv) (p : Pattern) (hi : p.inputs.Nodup) (u : ℕ) (hu : u ∈ p.inputs) (rest : List Command)
    (hseq : p.seq = .E u u :: rest) (hrun : p.checkRunnability = .ok ()) (data : DMData) (hd : data.Ok p.inputs) :
    simulateDM env p none data = .error .valueError := by
  obtain ⟨dm, hdm, hinv⟩ := dm_start_ok env none p.inputs hi data hd
  have inv := hinv (fun _ => false)
  have hmem : u ∈ (NodeIndex.clear.extend p.inputs).list := by
    simpa [NodeIndex.clear, NodeIndex.extend] using hu
  have hstep : DMState.step env none ⟨dm, NodeIndex.clear.extend p.inputs, [], 0⟩ (.cmd (.E u u)) = .error .valueError := by
    simp only [DMState.step, DMState.entangleNodes, inv.idx.index_ok hmem, bind, Except.bind,
      C56_entangle_self dm _ inv.shape]
  have hs : noisySequence p none = .ok (.cmd (.E u u) :: rest.map .cmd) := by
    unfold noisySequence; rw [hseq, List.map_cons]
  unfold simulateDM
  simp only []
  rw [hdm, hrun, hs]
  simp only [bind, Except.bind, DMState.loop, Option.map_none, hstep]

/-- **C57** The exclusion of `E` on twice the same node is necessary: `check_runnability` accepts such a command (and the state-vector
backend runs it), but the density-matrix backend raises `ValueError`. -/
theorem C57_self_entangle (env : DMEnv) : ∃ p : Pattern, p.OutputsOk ∧ p.checkRunnability = .ok () ∧ (∀ n d, Command.S n d ∉ p.seq) ∧
    simulateDM env p none (.pure (.state PlanarState.plus)) = .error .valueError := by
  have hrun : Runnable [0] [Command.E 0 0] := by
    intro pre c post h
    cases pre with
    | nil =>
      obtain ⟨rfl, -⟩ := List.cons.inj h
      exact ⟨⟨by simp [introduced], by simp [measuredIn]⟩, ⟨by simp [introduced], by simp [measuredIn]⟩⟩
    | cons a pre => simp at h
  have e := C08_count [0] [Command.E 0 0]
  have ho := C08_outputs [0] (by simp) _ hrun
  generalize hp : (Pattern.empty [0]).extend [Command.E 0 0] = p at e ho
  have hseq : p.seq = [Command.E 0 0] := e.1
  have hin : p.inputs = [0] := e.2.1
  have hout : p.outputs = [0] := by rw [ho]; rfl
  have hok : p.OutputsOk := by
    refine ⟨by rw [hin]; simp, by rw [hout]; simp, fun n => ?_⟩
    rw [ho, hseq, hin]; simp [Live]
  have hR : p.checkRunnability = .ok () := (checkRunnability_iff _).2 (by rw [hseq, hin]; exact hrun)
  exact ⟨p, hok, hR, by rw [hseq]; simp, self_entangle_fails env p hok.inputs_nodup 0 (by rw [hin]; simp) [] hseq hR _ trivial⟩

/-! ### Examples -/

/-- Non-trivial instance: the pattern of `exampleSeq` on a single input, with depolarising and amplitude damping noise, results
confused with probability 1/3, the most likely outcome chosen. -/
noncomputable def exampleDMEnv : DMEnv where
  sel := fun _ _ p0 => .ok (decide (p0 < 1 / 2))
  draw := fun k => if k % 2 = 0 then 1 / 4 else 1 / 2
  user := fun _ => .error .valueError

noncomputable def exampleParams : NoiseModel.Params := ⟨1 / 10, 1 / 5, 0, 1, 1 / 2, 1 / 3⟩

theorem exampleParams_ok : exampleParams.Ok := by
  constructor <;> (simp only [exampleParams]; constructor <;> norm_num)

theorem exampleNoise_library : LibraryModel (.compose [.depolarising exampleParams, .amplitudeDamping exampleParams]) := by
  refine .compose _ (fun m hm => ?_)
  rcases List.mem_pair.1 hm with rfl | rfl
  · exact .depolarising _ exampleParams_ok
  · exact .amplitudeDamping _ exampleParams_ok

example : ∃ seq st out, noisySequence ((Pattern.empty [0]).extend exampleSeq)
      (some (.compose [.depolarising exampleParams, .amplitudeDamping exampleParams])) = .ok seq ∧
    simulateDM exampleDMEnv ((Pattern.empty [0]).extend exampleSeq)
      (some (.compose [.depolarising exampleParams, .amplitudeDamping exampleParams])) (.pure (.state PlanarState.plus)) = .ok st ∧
    RunsN exampleDMEnv (some (NoiseModel.compose [.depolarising exampleParams, .amplitudeDamping exampleParams]).confuseResult) [0] [2]
      (ketBra (InputData.toState [0] (.state PlanarState.plus))) seq st out := by
  have e := C08_count [0] exampleSeq
  have ho := C08_outputs [0] (by simp) _ exampleSeq_runnable
  have hout : ((Pattern.empty [0]).extend exampleSeq).outputs = [2] := by rw [ho]; rfl
  have hok : ((Pattern.empty [0]).extend exampleSeq).OutputsOk := by
    refine ⟨by rw [e.2.1]; simp, by rw [hout]; simp, fun n => ?_⟩
    rw [ho, e.1, e.2.1]; simp [Live]
  have := C57_no_failure exampleDMEnv ((Pattern.empty [0]).extend exampleSeq) hok
    ((checkRunnability_iff _).2 (by rw [e.1, e.2.1]; exact exampleSeq_runnable))
    (by rw [e.1]; intro n d; simp [exampleSeq]) (by rw [e.1]; intro u; simp [exampleSeq]; omega)
    (some (.compose [.depolarising exampleParams, .amplitudeDamping exampleParams]))
    (by intro m hm; obtain rfl := Option.some.inj hm; exact exampleNoise_library) (.pure (.state PlanarState.plus)) trivial
    (by
      intro _ _ p0 h0 h1
      refine ⟨_, rfl, ?_⟩
      by_cases h : p0 < 1 / 2
      · simp only [h, decide_true, if_true]; norm_num at h ⊢; linarith
      · simp only [h, decide_false, Bool.false_eq_true, if_false]; norm_num at h ⊢; linarith)
  rw [hout, e.2.1] at this
  exact this

end Graphix
