import Verif.Proofs.Signals

/-!
# Properties C08, C09, C13, C14, C18: patterns, runnability, signal shifting, space
-/

namespace Graphix

/-! ## C08 -/

/-- **C08** After `Pattern(input_nodes=inputs)` followed by any sequence of `add`/`extend` calls
adding `cmds`: the command sequence is `cmds`, the inputs are unchanged, and `n_node` is the number
of inputs plus the number of prepared nodes. -/
theorem C08_count (inputs : List ℕ) (cmds : List Command) :
    ((Pattern.empty inputs).extend cmds).seq = cmds ∧
    ((Pattern.empty inputs).extend cmds).inputs = inputs ∧
    ((Pattern.empty inputs).extend cmds).nNode =
      inputs.length + (cmds.filterMap Command.prepared?).length := by
  induction cmds using List.reverseRecOn with
  | nil => simp [Pattern.extend, Pattern.empty]
  | append_singleton l c ih =>
    obtain ⟨h1, h2, h3⟩ := ih
    have e : (Pattern.empty inputs).extend (l ++ [c]) = ((Pattern.empty inputs).extend l).add c := by
      simp [Pattern.extend]
    rw [e]
    cases c <;> simp [Pattern.add, h1, h2, h3, Command.prepared?, List.filterMap_append, Nat.add_assoc]

/-- **C08** If in addition the sequence is runnable, the output nodes are the introduced (input or
prepared) nodes that are not measured, in order of introduction. -/
theorem C08_outputs (inputs : List ℕ) (hi : inputs.Nodup) (cmds : List Command)
    (hr : Runnable inputs cmds) :
    ((Pattern.empty inputs).extend cmds).outputs =
      (introduced inputs cmds).filter (fun n => n ∉ measuredIn cmds) := by
  induction cmds using List.reverseRecOn with
  | nil => simp [Pattern.extend, Pattern.empty, introduced, measuredIn]
  | append_singleton l c ih =>
    have hl := ih hr.prefix
    have hsub := hr.prefix.measured_sub
    have hnd := hr.prefix.introduced_nodup hi
    have hlast := hr.last
    have e : (Pattern.empty inputs).extend (l ++ [c]) = ((Pattern.empty inputs).extend l).add c := by
      simp [Pattern.extend]
    rw [e]
    have other : ∀ c : Command, c.prepared? = none → c.measured? = none →
        (((Pattern.empty inputs).extend l).add c).outputs = ((Pattern.empty inputs).extend l).outputs →
        (((Pattern.empty inputs).extend l).add c).outputs =
        (introduced inputs (l ++ [c])).filter (fun n => n ∉ measuredIn (l ++ [c])) := by
      intro c h1 h2 h3
      rw [h3, hl]; simp [introduced_append, measuredIn_append, h1, h2]
    cases c with
    | N n s =>
      simp only [Pattern.add, hl, introduced_append, measuredIn_append, Command.prepared?,
        Command.measured?, List.filterMap_cons, List.filterMap_nil, List.append_nil,
        List.filter_append]
      simp only [Allowed] at hlast
      have : n ∉ measuredIn l := fun h => hlast (hsub n h)
      simp [this]
    | M n m s t =>
      simp only [Pattern.add, hl, introduced_append, measuredIn_append, Command.prepared?,
        Command.measured?, List.filterMap_cons, List.filterMap_nil, List.append_nil]
      rw [(hnd.filter _).erase_eq_filter, List.filter_filter]
      apply List.filter_congr
      intro x _
      by_cases hx : x = n <;> by_cases hx2 : x ∈ measuredIn l <;> simp [hx, hx2]
    | _ => exact other _ rfl rfl rfl

/-- `extend` adds the commands one after the other, in any grouping. -/
theorem C08_extend_append (p : Pattern) (a b : List Command) :
    p.extend (a ++ b) = (p.extend a).extend b := by simp [Pattern.extend, List.foldl_append]

/-- `clear` and `replace` restart from the input nodes. -/
theorem C08_replace (p : Pattern) (cmds : List Command) (i : Option (List ℕ)) :
    p.replace cmds i = (Pattern.empty (i.getD p.inputs)).extend cmds := by
  cases i <;> rfl

/-- non-trivial instance: input 0, prepare 1 and 2, entangle, measure 0 and 1, correct 2. -/
noncomputable def exampleSeq : List Command :=
  [.N 1 .plus, .E 0 1, .N 2 .plus, .E 1 2, .M 0 (.pauli ⟨.X, .plus⟩) ∅ ∅,
   .M 1 (.bloch ⟨1/4, .XY⟩) {0} ∅, .X 2 {1}, .Z 2 {0}]

theorem exampleSeq_runnable : Runnable [0] exampleSeq := by
  have h := checkRunnability_iff ((Pattern.empty [0]).extend exampleSeq)
  rw [(C08_count [0] exampleSeq).1, (C08_count [0] exampleSeq).2.1] at h
  rw [← h]; rfl

example : ((Pattern.empty [0]).extend exampleSeq).outputs = [2] := by
  rw [C08_outputs [0] (by simp) _ exampleSeq_runnable]; rfl

/-! ## C09 -/

/-- **C09** `check_runnability` succeeds exactly when every command is allowed where it stands. -/
theorem C09_check_runnability (p : Pattern) :
    p.checkRunnability = .ok () ↔ Runnable p.inputs p.seq := checkRunnability_iff p

/-- **C09** In a runnable sequence no node is introduced twice (given distinct inputs), no node is
measured twice, and only introduced nodes are measured. -/
theorem C09_once (inputs : List ℕ) (hi : inputs.Nodup) (cmds : List Command)
    (h : Runnable inputs cmds) :
    (introduced inputs cmds).Nodup ∧ (measuredIn cmds).Nodup ∧
      ∀ n ∈ measuredIn cmds, n ∈ introduced inputs cmds :=
  ⟨h.introduced_nodup hi, h.measured_nodup, h.measured_sub⟩

example : Runnable [0] exampleSeq ∧ ¬ Runnable [0] [.E 0 1] := by
  refine ⟨exampleSeq_runnable, fun h => ?_⟩
  have := h [] (.E 0 1) [] rfl
  simp [Allowed, Live, introduced] at this

/-! ## C13 -/

/-- **C13** On a runnable pattern, for every branch `r'` of the shifted pattern, the original pattern
in the branch where each outcome is toggled by its signal does the same, up to a global phase, on
every input state. -/
theorem C13_shift_signals (p : Pattern) (h : p.checkRunnability = .ok ()) (r' : ℕ → Bool) :
    OpPhaseEq (semCmds r' p.shiftSignalsDirect.1.seq)
      (semCmds (shiftBranch (SignalDict.at p.shiftSignalsDirect.2) r') p.seq) :=
  shiftLoop_sem p.seq [] ∅ SigInv.empty (.of_runnable ((checkRunnability_iff p).1 h)) r'

/-- **C13** The same through the API: if `o'` holds an outcome for every measured node,
`shift_outcomes(o', signals)` succeeds, and the shifted pattern in branch `o'` does what the original
pattern does in the branch it returns. -/
theorem C13_shift_outcomes (p : Pattern) (h : p.checkRunnability = .ok ()) (o' : PyDict ℕ Bool)
    (ho : ∀ n ∈ measuredIn p.seq, n ∈ PyDict.keys o') :
    ∃ o, shiftOutcomes? o' p.shiftSignalsDirect.2 = some o ∧ PyDict.keys o = PyDict.keys o' ∧
      OpPhaseEq (semCmds (branchOf o') p.shiftSignalsDirect.1.seq) (semCmds (branchOf o) p.seq) := by
  have hr := (checkRunnability_iff p).1 h
  have hok := DomainsOk.of_runnable hr
  have hinv := shiftLoop_inv p.seq [] ∅ SigInv.empty hok
  rw [Finset.empty_union] at hinv
  obtain ⟨o, h1, h2, h3⟩ := shiftOutcomes?_spec p.shiftSignalsDirect.2 o' (fun n => by
    refine (hinv.sub n).trans ?_
    intro k hk; simp at hk ⊢; exact ho k hk)
  refine ⟨o, h1, h2, (C13_shift_signals p h (branchOf o')).trans (OpPhaseEq.of_eq ?_)⟩
  apply semCmds_congr p.seq ∅ _ _ hok
  intro n hn
  simp at hn
  exact (h3 n (ho n hn)).symm

/-- **C13** After shifting, no XY measurement has a t-domain and no XZ or YZ measurement an
s-domain; the pattern otherwise has the same commands, nodes and measurements. -/
theorem C13_shape (p : Pattern) :
    (∀ c ∈ p.shiftSignalsDirect.1.seq, ∀ n m s t, c = .M n m s t →
      (m.toBloch.plane = .XY → t = ∅) ∧ (m.toBloch.plane = .XZ → s = ∅) ∧
      (m.toBloch.plane = .YZ → s = ∅)) ∧
    List.Forall₂ SameUpToDomains p.seq p.shiftSignalsDirect.1.seq ∧
    p.shiftSignalsDirect.1.inputs = p.inputs ∧ p.shiftSignalsDirect.1.outputs = p.outputs := by
  refine ⟨?_, shiftLoop_same p.seq [], rfl, rfl⟩
  rintro c hc n m s t rfl
  have := shiftLoop_shifted p.seq [] _ hc
  simp only [Shifted] at this
  refine ⟨fun hp => ?_, fun hp => ?_, fun hp => ?_⟩ <;> simpa [hp] using this

/-- A runnable pattern with chained signals (0 → 1 → 2 through t-domains). -/
noncomputable def chainSeq : List Command :=
  [.N 0 .plus, .N 1 .plus, .N 2 .plus, .N 3 .plus, .M 0 (.pauli ⟨.X, .plus⟩) ∅ ∅,
   .M 1 (.bloch ⟨1/4, .XY⟩) ∅ {0}, .M 2 (.bloch ⟨1/4, .XY⟩) ∅ {1}, .Z 3 {2}]

theorem chainSeq_runnable : ((Pattern.empty []).extend chainSeq).checkRunnability = .ok () := rfl

theorem chainSeq_signals :
    ((Pattern.empty []).extend chainSeq).shiftSignalsDirect.2 = [(1, {0}), (2, {0, 1})] := by
  rfl

/-! ## C14 -/

/-- **C14** For the signals returned by shifting a runnable pattern, the map from branches of the
shifted pattern to branches of the original pattern is a bijection. -/
theorem C14_bijective (p : Pattern) (h : p.checkRunnability = .ok ()) :
    Function.Bijective (shiftBranch (SignalDict.at p.shiftSignalsDirect.2)) := by
  obtain ⟨ρ, hρ⟩ := shiftLoop_rank p.seq [] ∅ (fun _ => 0) 1 SigInv.empty
    (.of_runnable ((checkRunnability_iff p).1 h)) (by simp) (by simp [SignalDict.at])
  exact shiftBranch_bijective _ ρ hρ

/-- **C14** Applying the same signal map twice recovers the outcomes when signals are not chained
(no node of a signal has itself a signal). -/
theorem C14_involutive_of_unchained (sig : ℕ → Finset ℕ) (h : ∀ n, ∀ k ∈ sig n, sig k = ∅) :
    Function.Involutive (shiftBranch sig) := by
  intro r
  funext n
  have : parity (shiftBranch sig r) (sig n) = parity r (sig n) := by
    apply parity_congr
    intro k hk
    simp [shiftBranch, h n k hk, parity_empty]
  simp only [shiftBranch] at this ⊢
  rw [this]; simp

/-- **C14** For chained signals the documented inverse use of `shift_outcomes` (applying it with the
same map in the opposite direction) does not recover the outcomes: a runnable pattern whose signal map
is not an involution. -/
theorem C14_chained_not_involutive :
    ∃ p : Pattern, p.checkRunnability = .ok () ∧
      ¬ Function.Involutive (shiftBranch (SignalDict.at p.shiftSignalsDirect.2)) := by
  refine ⟨(Pattern.empty []).extend chainSeq, chainSeq_runnable, fun h => ?_⟩
  have := congrFun (h (fun n => decide (n = 0))) 2
  rw [chainSeq_signals] at this
  revert this
  decide

example : ∀ n, ∀ k ∈ SignalDict.at [(3, {1, 2}), (4, {2})] n, SignalDict.at [(3, {1, 2}), (4, {2})] k = ∅ := by
  intro n k hk
  simp only [SignalDict.at, PyDict.get?] at hk ⊢
  split at hk
  · simp at hk; rcases hk with rfl | rfl <;> simp
  · split at hk
    · simp at hk; subst hk; simp
    · simp at hk

/-! ## C18 -/

/-- Number of live qubits after the commands `pre`: inputs, plus prepared, minus measured. -/
def liveCount (inputs : List ℕ) (pre : List Command) : ℤ :=
  inputs.length + (pre.filterMap Command.prepared?).length - (measuredIn pre).length

/-- The count is the number of live nodes, in a runnable sequence. -/
theorem C18_live_count (inputs : List ℕ) (hi : inputs.Nodup) (pre : List Command)
    (h : Runnable inputs pre) :
    liveCount inputs pre =
      ((introduced inputs pre).filter (fun n => n ∉ measuredIn pre)).length := by
  have h1 := h.introduced_nodup hi
  have h2 := h.measured_nodup
  have h3 := h.measured_sub
  have e : ((introduced inputs pre).filter (fun n => n ∈ measuredIn pre)).length =
      (measuredIn pre).length := by
    apply List.Perm.length_eq
    rw [List.perm_ext_iff_of_nodup (h1.filter _) h2]
    intro a; simp only [List.mem_filter, decide_eq_true_eq]
    exact ⟨fun h => h.2, fun h => ⟨h3 a h, h⟩⟩
  have e2 := List.length_eq_length_filter_add (l := introduced inputs pre)
    (fun n => decide (n ∈ measuredIn pre))
  have e3 : (introduced inputs pre).length =
      inputs.length + (pre.filterMap Command.prepared?).length := by simp [introduced]
  have e4 : ((introduced inputs pre).filter (fun n => !decide (n ∈ measuredIn pre))) =
      (introduced inputs pre).filter (fun n => n ∉ measuredIn pre) := by
    apply List.filter_congr; intro x _; simp
  rw [e4] at e2
  unfold liveCount
  omega

theorem maxSpaceLoop_spec (l : List Command) : ∀ (cur best : ℤ), cur ≤ best →
    best ≤ Pattern.maxSpaceLoop l cur best ∧
    (∀ pre post, l = pre ++ post →
      cur + (pre.filterMap Command.prepared?).length - (measuredIn pre).length ≤
        Pattern.maxSpaceLoop l cur best) ∧
    (Pattern.maxSpaceLoop l cur best = best ∨ ∃ pre post, l = pre ++ post ∧
      Pattern.maxSpaceLoop l cur best =
        cur + (pre.filterMap Command.prepared?).length - (measuredIn pre).length) := by
  induction l with
  | nil =>
    intro cur best h
    refine ⟨le_refl _, ?_, Or.inl rfl⟩
    intro pre post hl
    have : pre = [] := by cases pre <;> simp_all
    subst this; simpa [Pattern.maxSpaceLoop, measuredIn] using h
  | cons c l ih =>
    intro cur best h
    have gen : ∀ (cur' best' : ℤ), best ≤ best' → cur' ≤ best' → (best' = best ∨ best' = cur') →
        Pattern.maxSpaceLoop (c :: l) cur best = Pattern.maxSpaceLoop l cur' best' →
        (∀ pre : List Command, cur + ((c :: pre).filterMap Command.prepared?).length -
          (measuredIn (c :: pre)).length =
          cur' + (pre.filterMap Command.prepared?).length - (measuredIn pre).length) →
        best ≤ Pattern.maxSpaceLoop (c :: l) cur best ∧
        (∀ pre post, c :: l = pre ++ post →
          cur + (pre.filterMap Command.prepared?).length - (measuredIn pre).length ≤
            Pattern.maxSpaceLoop (c :: l) cur best) ∧
        (Pattern.maxSpaceLoop (c :: l) cur best = best ∨ ∃ pre post, c :: l = pre ++ post ∧
          Pattern.maxSpaceLoop (c :: l) cur best =
            cur + (pre.filterMap Command.prepared?).length - (measuredIn pre).length) := by
      intro cur' best' hb hc hor he hpre
      obtain ⟨h1, h2, h3⟩ := ih cur' best' hc
      rw [he]
      refine ⟨le_trans hb h1, ?_, ?_⟩
      · intro pre post hl
        cases pre with
        | nil => simp [measuredIn]; omega
        | cons c' pre =>
          simp only [List.cons_append, List.cons.injEq] at hl
          obtain ⟨rfl, hl⟩ := hl
          rw [hpre]; exact h2 pre post hl
      · rcases h3 with h3 | ⟨pre, post, hl, h3⟩
        · rcases hor with hor | hor
          · left; rw [h3, hor]
          · right
            refine ⟨[c], l, rfl, ?_⟩
            rw [h3, hor, hpre]; simp [measuredIn]
        · right; exact ⟨c :: pre, post, by simp [hl], by rw [hpre, h3]⟩
    cases c with
    | N n s =>
      apply gen (cur + 1) (max (cur + 1) best) (le_max_right _ _) (le_max_left _ _)
        (by rcases le_total (cur + 1) best with h | h
            · left; exact max_eq_right h
            · right; exact max_eq_left h) rfl
      intro pre; simp only [List.filterMap_cons, Command.prepared?, Command.measured?, measuredIn, List.length_cons]; push_cast; ring
    | M n m s t =>
      apply gen (cur - 1) best (le_refl _) (by omega) (Or.inl rfl) rfl
      intro pre; simp only [List.filterMap_cons, Command.prepared?, Command.measured?, measuredIn, List.length_cons]; push_cast; ring
    | _ =>
      apply gen cur best (le_refl _) h (Or.inl rfl) rfl
      intro pre; simp only [List.filterMap_cons, Command.prepared?, Command.measured?, measuredIn]

/-- **C18** `max_space` is the maximum, over all prefixes of the command sequence, of the number of
live qubits. -/
theorem C18_max_space (p : Pattern) :
    (∀ pre post, p.seq = pre ++ post → liveCount p.inputs pre ≤ p.maxSpace) ∧
    ∃ pre post, p.seq = pre ++ post ∧ p.maxSpace = liveCount p.inputs pre := by
  obtain ⟨-, h2, h3⟩ := maxSpaceLoop_spec p.seq p.inputs.length p.inputs.length (le_refl _)
  refine ⟨h2, ?_⟩
  rcases h3 with h3 | ⟨pre, post, hl, h3⟩
  · exact ⟨[], p.seq, rfl, by unfold Pattern.maxSpace; rw [h3]; simp [liveCount, measuredIn]⟩
  · exact ⟨pre, post, hl, h3⟩

/-- The prefixes that end just after an `N` or an `M`, in order. -/
def spacePrefixes (pre : List Command) : List Command → List (List Command)
  | [] => []
  | c :: l => match c with
    | .N _ _ | .M _ _ _ _ => (pre ++ [c]) :: spacePrefixes (pre ++ [c]) l
    | _ => spacePrefixes (pre ++ [c]) l

theorem spaceListLoop_eq (l : List Command) : ∀ pre : List Command,
    Pattern.spaceListLoop l (liveCount [] pre) = (spacePrefixes pre l).map (liveCount []) := by
  induction l with
  | nil => intro pre; rfl
  | cons c l ih =>
    intro pre
    have hN : ∀ n s, liveCount [] (pre ++ [.N n s]) = liveCount [] pre + 1 := by
      intro n s
      simp only [liveCount, measuredIn_append, List.filterMap_append, List.filterMap_cons,
        List.filterMap_nil, Command.prepared?, Command.measured?, List.length_append,
        List.length_cons, List.length_nil]
      push_cast; ring
    have hM : ∀ n m s t, liveCount [] (pre ++ [.M n m s t]) = liveCount [] pre - 1 := by
      intro n m s t
      simp only [liveCount, measuredIn_append, List.filterMap_append, List.filterMap_cons,
        List.filterMap_nil, Command.prepared?, Command.measured?, List.length_append,
        List.length_cons, List.length_nil]
      push_cast; ring
    cases c with
    | N n s => simp only [Pattern.spaceListLoop, spacePrefixes, List.map_cons, hN, ← ih]
    | M n m s t => simp only [Pattern.spaceListLoop, spacePrefixes, List.map_cons, hM, ← ih]
    | _ =>
      simp only [Pattern.spaceListLoop, spacePrefixes, ← ih]
      congr 1
      simp only [liveCount, measuredIn_append, List.filterMap_append, List.filterMap_cons,
        List.filterMap_nil, Command.prepared?, Command.measured?, List.append_nil]

/-- **C18** (partial) `space_list` lists the numbers of live qubits after each preparation or
measurement, **for patterns without inputs**.  For patterns with inputs the full claim is false of
the code: see `C18_space_list_ignores_inputs`. -/
theorem C18_space_list_partial (p : Pattern) (h : p.inputs = []) :
    p.spaceList = (spacePrefixes [] p.seq).map (liveCount p.inputs) := by
  rw [h, ← spaceListLoop_eq]; simp [liveCount, measuredIn, Pattern.spaceList]

/-- **C18** What `space_list` lists in general: the number of live qubits *minus the number of
inputs*. -/
theorem C18_space_list_general (p : Pattern) :
    p.spaceList =
      (spacePrefixes [] p.seq).map (fun pre => liveCount p.inputs pre - p.inputs.length) := by
  have h : (fun pre => liveCount p.inputs pre - p.inputs.length) = liveCount [] := by
    funext pre; simp [liveCount]; ring
  rw [h, ← spaceListLoop_eq]; simp [liveCount, measuredIn, Pattern.spaceList]

/-- **C18** Negation witness: on a runnable one-input pattern, `space_list` is `[-1]` although the
numbers of live qubits are `[0]`. -/
theorem C18_space_list_ignores_inputs :
    ∃ p : Pattern, p.checkRunnability = .ok () ∧ p.spaceList = [-1] ∧
      (spacePrefixes [] p.seq).map (liveCount p.inputs) = [0] :=
  ⟨(Pattern.empty [0]).extend [.M 0 (.pauli ⟨.X, .plus⟩) ∅ ∅], rfl, rfl, rfl⟩

example : ((Pattern.empty [0]).extend exampleSeq).maxSpace = 3 := rfl

end Graphix
