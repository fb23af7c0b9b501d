import Verif.Props.PatternParam
import Verif.Model.ParamStd

/-!
# C65: standardization commutes with giving values to the parameters
-/

namespace Graphix

open scoped symmDiff

/-- The two measurement commands are the same up to the description of the measurement: same node, same domains, same
observable. -/
def SameM (v : ℕ → ℝ) (a : PMCmd) (b : MCmd) : Prop :=
  a.node = b.node ∧ a.sDomain = b.sDomain ∧ a.tDomain = b.tDomain ∧
    observable (a.measurement.at v) = observable b.measurement

/-- The accumulators agree. -/
structure PStdBody.Agree (v : ℕ → ℝ) (pb : PStdBody) (b : StdBody) : Prop where
  base : b = { pb.base with mList := b.mList }
  m : List.Forall₂ (SameM v) pb.mList b.mList

/-- Both results are errors of the same kind, or both are values that agree. -/
def PStdBody.AgreeE (v : ℕ → ℝ) : Except PyErr PStdBody → Except PyErr StdBody → Prop
  | .ok pb, .ok b => pb.Agree v b
  | .error e, .error e' => e = e'
  | _, _ => False

theorem edgeSide_mList (b : StdBody) (l : List MCmd) (i j : ℕ) :
    StdBody.edgeSide { b with mList := l } i j = (b.edgeSide i j).map (fun b' => { b' with mList := l }) := by
  simp only [StdBody.edgeSide]
  cases PyDict.get? b.cDict i with
  | none => rfl
  | some g =>
    simp only
    cases commuteClifford g b.cDict j with
    | error e => rfl
    | ok c => rfl

theorem step_mList (b : StdBody) (l : List MCmd) (c : Command) (hc : ∀ n m s t, c ≠ .M n m s t) :
    StdBody.step { b with mList := l } c = (b.step c).map (fun b' => { b' with mList := l }) := by
  cases c with
  | M n m s t => exact absurd rfl (hc n m s t)
  | E u v =>
    simp only [StdBody.step, edgeSide_mList]
    cases h : b.edgeSide u v with
    | error e => rfl
    | ok b1 =>
      simp only [Except.map, bind, Except.bind, edgeSide_mList]
      cases h2 : b1.edgeSide v u with
      | error e => rfl
      | ok b2 => rfl
  | X n d =>
    simp only [StdBody.step, StdBody.correctionCase]
    cases ((PyDict.get? b.cDict n).getD Clifford.I).commuteDomains? ⟨d, ∅⟩ <;> rfl
  | Z n d =>
    simp only [StdBody.step, StdBody.correctionCase]
    cases ((PyDict.get? b.cDict n).getD Clifford.I).commuteDomains? ⟨∅, d⟩ <;> rfl
  | N n st => rfl
  | C n g => rfl
  | S n d => rfl
  | T => rfl

theorem PStdBody.other_agree {v : ℕ → ℝ} {pb : PStdBody} {b : StdBody} (h : pb.Agree v b) (c : Command)
    (hc : ∀ n m s t, c ≠ .M n m s t) : PStdBody.AgreeE v (pb.other c) (b.step c) := by
  have hb : b.step c = (pb.base.step c).map (fun b' => { b' with mList := b.mList }) := by
    conv_lhs => rw [h.base]
    exact step_mList _ _ _ hc
  rw [hb]
  simp only [PStdBody.other, bind, Except.bind]
  cases pb.base.step c with
  | error e => rfl
  | ok b' => exact ⟨rfl, h.m⟩

theorem PStdBody.measure_agree {v : ℕ → ℝ} {pb : PStdBody} {b : StdBody} (h : pb.Agree v b) (n : ℕ) (m : PMeasurement)
    (mv : Measurement) (hmv : observable (m.at v) = observable mv) (s t : Finset ℕ) :
    PStdBody.AgreeE v (pb.measureCase ⟨n, m, s, t⟩) (b.measureCase ⟨n, mv, s, t⟩) := by
  have e1 : b.cDict = pb.base.cDict := by rw [h.base]
  have e2 : b.zDict = pb.base.zDict := by rw [h.base]
  have e3 : b.xDict = pb.base.xDict := by rw [h.base]
  have hend : ∀ (x : PMCmd) (y : MCmd), SameM v x y →
      PStdBody.Agree v
        { base := { pb.base with
            cDict := PyDict.erase pb.base.cDict x.node
            zDict := PyDict.erase pb.base.zDict x.node
            xDict := PyDict.erase pb.base.xDict x.node }
          mList := pb.mList ++ [⟨x.node, x.measurement, x.sDomain ∆ ((PyDict.get? pb.base.xDict x.node).getD ∅),
            x.tDomain ∆ ((PyDict.get? pb.base.zDict x.node).getD ∅)⟩] }
        { b with
            cDict := PyDict.erase b.cDict y.node
            zDict := PyDict.erase b.zDict y.node
            xDict := PyDict.erase b.xDict y.node
            mList := b.mList ++ [⟨y.node, y.measurement, y.sDomain ∆ ((PyDict.get? b.xDict y.node).getD ∅),
              y.tDomain ∆ ((PyDict.get? b.zDict y.node).getD ∅)⟩] } := by
    intro x y ⟨h1, h2, h3, h4⟩
    constructor
    · rw [h1, e1, e2, e3]
      conv_lhs => rw [h.base]
    · refine List.rel_append h.m (.cons ⟨h1, ?_, ?_, h4⟩ .nil)
      · simp only [h1, h2, e3]
      · simp only [h1, h3, e2]
  simp only [PStdBody.measureCase, StdBody.measureCase, e1]
  cases hg : PyDict.get? pb.base.cDict n with
  | none =>
    have := hend ⟨n, m, s, t⟩ ⟨n, mv, s, t⟩ ⟨rfl, rfl, rfl, hmv⟩
    rw [e1] at this
    exact this
  | some g =>
    obtain ⟨m', hm1, hm2⟩ := C65_clifford_parameters m g
    simp only [PMCmd.clifford?, MCmd.clifford?]
    cases hd : g.commuteDomains? ⟨s, t⟩ with
    | none => simp only [bind, Except.bind, Option.bind]; exact rfl
    | some d =>
      simp only [hm1, bind, Except.bind, Option.bind, pure, Except.pure]
      have := hend ⟨n, m', d.s, d.t⟩ ⟨n, mv.clifford g, d.s, d.t⟩ ⟨rfl, rfl, rfl, by
        dsimp only
        rw [(hm2 v).1, C05_clifford_observable, C05_clifford_observable, hmv]⟩
      rw [e1] at this
      exact this

theorem PStdBody.run_agree {v : ℕ → ℝ} (l : List PCommand) : ∀ {pb : PStdBody} {b : StdBody}, pb.Agree v b →
    PStdBody.AgreeE v (pb.run l) (b.run (l.map (PCommand.at v))) := by
  induction l with
  | nil => intro pb b h; exact h
  | cons c l ih =>
    intro pb b h
    have hs : PStdBody.AgreeE v (pb.step c) (b.step (c.at v)) := by
      cases c with
      | M n m s t => exact measure_agree h n m _ rfl s t
      | _ => exact other_agree h _ (by intros; simp [PCommand.at])
    rw [PStdBody.run, List.map_cons, StdBody.run]
    cases h1 : pb.step c with
    | error e =>
      cases h2 : b.step (c.at v) with
      | error e' => rw [h1, h2] at hs; simpa [PStdBody.AgreeE, bind, Except.bind] using hs
      | ok b' => rw [h1, h2] at hs; exact hs.elim
    | ok pb' =>
      cases h2 : b.step (c.at v) with
      | error e' => rw [h1, h2] at hs; exact hs.elim
      | ok b' => rw [h1, h2] at hs; exact ih hs

theorem skeleton_run (v : ℕ → ℝ) (l : List PCommand) (st : RunState) :
    st.run (l.map PCommand.skeleton) = st.run (l.map (PCommand.at v)) := by
  induction l generalizing st with
  | nil => rfl
  | cons c l ih =>
    have : st.step c.skeleton = st.step (c.at v) := by cases c <;> rfl
    rw [List.map_cons, List.map_cons, RunState.run, RunState.run, this]
    cases st.step (c.at v) with
    | error e => rfl
    | ok st' => exact ih st'

/-- **C65** `check_runnability` gives the same answer before and after the parameters get values. -/
theorem C65_runnability_parameters (p : PPattern) (v : ℕ → ℝ) : p.checkRunnability = (p.at v).checkRunnability := by
  simp only [PPattern.checkRunnability, Pattern.checkRunnability, PPattern.at, skeleton_run v]

/-- Two commands are the same, except that measurements may be described differently: they have the same observable. -/
def SameCommand : Command → Command → Prop
  | .M n m s t, .M n' m' s' t' => n = n' ∧ s = s' ∧ t = t' ∧ observable m = observable m'
  | c, c' => c = c'

theorem SameCommand.refl (c : Command) : SameCommand c c := by
  cases c <;> simp [SameCommand]

theorem sameCommands_sem (r : ℕ → Bool) {l l' : List Command} (h : List.Forall₂ SameCommand l l') :
    OpPhaseEq (semCmds r l) (semCmds r l') := by
  induction h with
  | nil => exact OpPhaseEq.refl _
  | @cons c c' l l' h1 _ ih =>
    refine OpPhaseEq.comp (F := semCmds r l) (F' := semCmds r l') (semCmds_homog r _) ih ?_
    cases c with
    | M n m s t =>
      cases c' with
      | M n' m' s' t' =>
        obtain ⟨rfl, rfl, rfl, h4⟩ := h1
        exact (projOut_of_observable h4 n (r n)).comp_right
          (fun ψ => op1 (powB Ops.X (parity r s)) n (op1 (powB Ops.Z (parity r t)) n ψ))
      | _ => simp [SameCommand] at h1
    | _ =>
      have : c' = _ := (show _ = c' from by cases c' <;> first | exact h1 | simp [SameCommand] at h1).symm
      subst this
      exact OpPhaseEq.refl _

theorem outputs_congr {l l' : List Command} (h : List.Forall₂ SameCommand l l') : ∀ (p p' : Pattern), p.outputs = p'.outputs →
    (p.extend l).outputs = (p'.extend l').outputs := by
  induction h with
  | nil => intro p p' e; exact e
  | @cons c c' l l' h1 _ ih =>
    intro p p' e
    simp only [Pattern.extend, List.foldl_cons] at ih ⊢
    apply ih
    cases c <;> cases c' <;> simp_all [SameCommand, Pattern.add]

/-- **C65** Standardizing a pattern with parameters and then giving values to the parameters is the same as giving the
values first: `standardize` succeeds on the pattern with parameters exactly when it succeeds on the pattern with
values, for the same enumeration of the edges, and the resulting patterns have the same inputs, outputs and commands
(up to the description of the measurements, which have the same observables). -/
theorem C65_standardize_parameters (p : PPattern) (edges : Finset (Sym2 ℕ) → List (ℕ × ℕ)) (v : ℕ → ℝ) :
    (∀ q, p.standardize edges = .ok q → ∃ q', (do
        let sp ← StdPattern.fromPattern (p.at v)
        sp.toPattern (edges sp.eSet)) = .ok q' ∧ (q.at v).inputs = q'.inputs ∧ (q.at v).outputs = q'.outputs ∧
      List.Forall₂ SameCommand (q.at v).seq q'.seq) ∧
    (∀ e, p.standardize edges = .error e → (do
        let sp ← StdPattern.fromPattern (p.at v)
        sp.toPattern (edges sp.eSet)) = .error e) := by
  have hrn := C65_runnability_parameters p v
  have hrun := PStdBody.run_agree (v := v) p.seq (pb := ⟨StdBody.init, []⟩) (b := StdBody.init) ⟨rfl, .nil⟩
  simp only [PPattern.standardize, StdPattern.fromPattern, hrn]
  cases hc : (p.at v).checkRunnability with
  | error e =>
    refine ⟨fun q h => (by cases h), fun e' h => ?_⟩
    cases h; rfl
  | ok u =>
    simp only
    have hseq : (p.at v).seq = p.seq.map (PCommand.at v) := rfl
    rw [hseq]
    cases h1 : PStdBody.run ⟨StdBody.init, []⟩ p.seq with
    | error e =>
      cases h2 : StdBody.init.run (p.seq.map (PCommand.at v)) with
      | error e' =>
        rw [h1, h2] at hrun
        have : e = e' := hrun
        subst this
        refine ⟨fun q h => (by cases h), fun e' h => ?_⟩
        cases h; rfl
      | ok b => rw [h1, h2] at hrun; exact hrun.elim
    | ok pb =>
      cases h2 : StdBody.init.run (p.seq.map (PCommand.at v)) with
      | error e' => rw [h1, h2] at hrun; exact hrun.elim
      | ok b =>
        rw [h1, h2] at hrun
        have hag : pb.Agree v b := hrun
        have eE : b.eSet = pb.base.eSet := by rw [hag.base]
        have eN : b.nList = pb.base.nList := by rw [hag.base]
        have eZ : b.zDict = pb.base.zDict := by rw [hag.base]
        have eX : b.xDict = pb.base.xDict := by rw [hag.base]
        have eC : b.cDict = pb.base.cDict := by rw [hag.base]
        simp only [bind, Except.bind, pure, Except.pure, eE, StdPattern.toPattern]
        set es := edges pb.base.eSet with hes
        have hcmds : List.Forall₂ SameCommand ((pb.cmds es).map (PCommand.at v))
            (StdPattern.cmds ⟨b, (p.at v).inputs, (p.at v).outputs⟩ es) := by
          simp only [PStdBody.cmds, StdPattern.cmds, List.map_append, List.map_map, eN, eZ, eX, eC]
          have same : ∀ (l : List Command), List.Forall₂ SameCommand l l := fun l => List.forall₂_same.2 (fun c _ => SameCommand.refl c)
          refine List.rel_append (List.rel_append (List.rel_append (List.rel_append (List.rel_append (same _) (same _)) ?_) (same _)) (same _)) (same _)
          rw [List.forall₂_map_left_iff, List.forall₂_map_right_iff]
          refine hag.m.imp ?_
          rintro a c ⟨g1, g2, g3, g4⟩
          exact ⟨g1, g2, g3, g4⟩
        by_cases hself : ∃ e ∈ es, e.1 = e.2
        · have ha : (es.any fun e => decide (e.1 = e.2)) = true := by simpa using hself
          rw [if_pos ha, if_pos hself]
          exact ⟨fun q h => (by cases h), fun e h => by cases h; rfl⟩
        · have ha : (es.any fun e => decide (e.1 = e.2)) = false := by
            rw [Bool.eq_false_iff]; intro h; exact hself (by simpa using h)
          rw [if_neg (by rw [ha]; simp), if_neg hself]
          obtain ⟨f1, f2⟩ := PPattern.foldl_at v p.inputs (pb.cmds es)
          set w := (pb.cmds es).foldl PPattern.add (PPattern.empty p.inputs) with hw
          have hout : w.outputs = ((Pattern.empty p.inputs).extend (StdPattern.cmds ⟨b, (p.at v).inputs, (p.at v).outputs⟩ es)).outputs := by
            have := congrArg Pattern.outputs f1
            rw [show w.outputs = (w.at v).outputs from rfl, this]
            exact outputs_congr hcmds _ _ rfl
          have hin : w.inputs = p.inputs := by
            have := congrArg Pattern.inputs f1
            rw [(C08_count _ _).2.1] at this; exact this
          obtain ⟨c1, c2, -⟩ := C08_count p.inputs (StdPattern.cmds ⟨b, (p.at v).inputs, (p.at v).outputs⟩ es)
          have hpo : (p.at v).outputs = p.outputs := rfl
          have hpi : (p.at v).inputs = p.inputs := rfl
          simp only [PPattern.reorderOutputNodes, Pattern.reorderOutputNodes, bind, Except.bind, pure, Except.pure, hpo, hpi] at hout c1 c2 ⊢
          rw [hout]
          cases hp : assertPermutation ((Pattern.empty p.inputs).extend (StdPattern.cmds ⟨b, p.inputs, p.outputs⟩ es)).outputs p.outputs with
          | error e => exact ⟨fun q h => (by cases h), fun e' h => by cases h; rfl⟩
          | ok u =>
            refine ⟨fun q h => ?_, fun e h => by cases h⟩
            cases h
            refine ⟨_, rfl, ?_, rfl, ?_⟩
            · simp only [PPattern.at, hin, c2]
            · simp only [PPattern.at, c1, f2]; exact hcmds

/-- **C65** Standardizing a pattern with parameters does not change what it computes, for any values of the
parameters and in any branch. -/
theorem C65_standardize_parameters_meaning (p q : PPattern) (edges : Finset (Sym2 ℕ) → List (ℕ × ℕ))
    (hen : ∀ E, StdPattern.Enumerates (edges E) E) (v : ℕ → ℝ) (hE : NoSelfLoop (p.at v).seq)
    (h : p.standardize edges = .ok q) (r : ℕ → Bool) :
    OpPhaseEq (semCmds r (q.at v).seq) (semCmds r (p.at v).seq) := by
  obtain ⟨q', h1, -, -, h4⟩ := (C65_standardize_parameters p edges v).1 q h
  refine (sameCommands_sem r h4).trans ?_
  cases hf : StdPattern.fromPattern (p.at v) with
  | error e => rw [hf] at h1; cases h1
  | ok sp =>
    rw [hf] at h1
    exact (C11_standardize (p.at v) q' hE ⟨sp, hf, _, hen _, h1⟩ r).1.symm

example : ∃ edges : Finset (Sym2 ℕ) → List (ℕ × ℕ), (∀ E, StdPattern.Enumerates (edges E) E) ∧
    NoSelfLoop (exParam.at (fun _ => 0)).seq ∧ ∃ q, exParam.standardize edges = .ok q := by
  choose edges hen using enumerates_exists
  have hns : NoSelfLoop (exParam.at (fun _ => 0)).seq := by
    intro u v h
    simp only [exParam, PPattern.at, List.map_cons, List.map_nil, PCommand.at, List.mem_cons, List.not_mem_nil,
      Command.E.injEq, reduceCtorEq, false_or, or_false] at h
    omega
  refine ⟨edges, hen, hns, ?_⟩
  cases h : exParam.standardize edges with
  | ok q => exact ⟨q, rfl⟩
  | error e =>
    exfalso
    have h2 := (C65_standardize_parameters exParam edges (fun _ => 0)).2 e h
    obtain ⟨ho, hr⟩ := exParam_ok (fun _ => 0)
    obtain ⟨-, sp, hsp, -⟩ := C12_accepts_without_clifford _ ho hns hr (by
      intro n c hc
      simp [exParam, PPattern.at, PCommand.at] at hc)
    obtain ⟨q, hq⟩ := C12_to_pattern_succeeds _ ho hns sp hsp (edges sp.eSet) (hen _)
    rw [hsp] at h2
    simp only [bind, Except.bind, hq] at h2
    cases h2

end Graphix
