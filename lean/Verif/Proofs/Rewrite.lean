import Verif.Props.Standardize

/-!
# Rewriting a pattern command by command
-/

namespace Graphix

/-- Rebuilding a pattern from a runnable sequence succeeds. -/
theorem rebuild_ok {inputs outputs : List ℕ} {cmds : List Command} (hi : inputs.Nodup)
    (hr : Runnable inputs cmds) (ho : outputs.Nodup) (hl : ∀ n, n ∈ outputs ↔ Live inputs cmds n) :
    ∃ q, ((Pattern.empty inputs).extend cmds).reorderOutputNodes outputs = .ok q ∧ q.seq = cmds ∧
      q.inputs = inputs ∧ q.outputs = outputs ∧ q.checkRunnability = .ok () ∧ q.OutputsOk := by
  obtain ⟨c1, c2, -⟩ := C08_count inputs cmds
  refine ⟨{ (Pattern.empty inputs).extend cmds with outputs := outputs }, ?_, c1, c2, rfl, ?_, ?_⟩
  · unfold Pattern.reorderOutputNodes
    have : assertPermutation ((Pattern.empty inputs).extend cmds).outputs outputs = .ok () := by
      rw [assertPermutation_ok_iff]
      refine ⟨?_, ho⟩
      rw [C08_outputs _ hi _ hr]
      ext n
      simp only [List.mem_toFinset, List.mem_filter, decide_eq_true_eq]
      exact hl n
    simp only [this]; rfl
  · rw [checkRunnability_iff]; simp only [c1, c2]; exact hr
  · exact ⟨by simp only [c2]; exact hi, ho, fun n => by simp only [c1, c2]; exact hl n⟩

theorem Allowed.congr {inputs : List ℕ} {pre pre' : List Command} {c : Command}
    (h1 : introduced inputs pre = introduced inputs pre') (h2 : measuredIn pre = measuredIn pre')
    (h : Allowed inputs pre c) : Allowed inputs pre' c := by
  have live : ∀ n, Live inputs pre n → Live inputs pre' n := by
    intro n hn; unfold Live at *; rwa [← h1, ← h2]
  cases c with
  | N n st => intro hn; exact h (h1 ▸ hn)
  | M n m s t =>
    exact ⟨live _ h.1, fun k hk => h2 ▸ h.2.1 k hk, fun k hk => h2 ▸ h.2.2 k hk⟩
  | E u v => exact ⟨live _ h.1, live _ h.2⟩
  | C n g => exact live _ h
  | X n d => exact ⟨live _ h.1, fun k hk => h2 ▸ h.2 k hk⟩
  | Z n d => exact ⟨live _ h.1, fun k hk => h2 ▸ h.2 k hk⟩
  | S n d => trivial
  | T => trivial

/-- `lc` may replace the command `c`: same nodes prepared and measured, and each command is allowed
where `c` was. -/
structure Expansion (c : Command) (lc : List Command) : Prop where
  prepared : lc.filterMap Command.prepared? = [c].filterMap Command.prepared?
  measured : lc.filterMap Command.measured? = [c].filterMap Command.measured?
  allowed : ∀ inputs pre, Allowed inputs pre c → ∀ a x b, lc = a ++ x :: b → Allowed inputs (pre ++ a) x

theorem Expansion.self (c : Command) : Expansion c [c] := by
  refine ⟨rfl, rfl, ?_⟩
  intro inputs pre h a x b e
  rcases a with _ | ⟨y, a⟩
  · simp at e; simpa [e.1] using e.1 ▸ h
  · simp at e

theorem expansion_runnable {inputs : List ℕ} {l : List Command} {ls : List (List Command)}
    (h : List.Forall₂ Expansion l ls) (hr : Runnable inputs l) :
    Runnable inputs ls.flatten ∧ introduced inputs ls.flatten = introduced inputs l ∧
      measuredIn ls.flatten = measuredIn l := by
  have key : ∀ (l : List Command) (ls : List (List Command)), List.Forall₂ Expansion l ls →
      ls.flatten.filterMap Command.prepared? = l.filterMap Command.prepared? ∧
      ls.flatten.filterMap Command.measured? = l.filterMap Command.measured? := by
    intro l ls h
    induction h with
    | nil => simp
    | cons hd _ ih =>
      rename_i c lc l ls
      rw [List.flatten_cons, List.filterMap_append, List.filterMap_append, ih.1, ih.2, hd.prepared,
        hd.measured]
      rw [← List.filterMap_append, ← List.filterMap_append]
      exact ⟨rfl, rfl⟩
  refine ⟨?_, ?_, (key l ls h).2⟩
  · have gen : ∀ (pre : List Command) (pre' : List Command), introduced inputs pre' = introduced inputs pre →
        measuredIn pre' = measuredIn pre → Runnable inputs pre' → Runnable inputs (pre ++ l) →
        Runnable inputs (pre' ++ ls.flatten) := by
      clear hr
      induction h with
      | nil => intro pre pre' _ _ h _; simpa using h
      | cons hd hrest ih =>
        rename_i c lc l ls
        intro pre pre' e1 e2 hpre hr
        have hal : Allowed inputs pre c := hr pre c l rfl
        rw [List.flatten_cons, ← List.append_assoc]
        refine ih (pre ++ [c]) (pre' ++ lc) ?_ ?_ ?_ ?_
        · rw [introduced_append, introduced_append, e1, hd.prepared]
        · rw [measuredIn_append, measuredIn_append, e2]; unfold measuredIn; rw [hd.measured]
        · refine Runnable.append hpre ?_
          intro a x b e
          exact (hd.allowed inputs pre' (hal.congr e1.symm e2.symm) a x b e)
        · simpa using hr
    simpa using gen [] [] rfl rfl (runnable_nil _) hr
  · unfold introduced; rw [(key l ls h).1]

theorem expansion_sem {r : ℕ → Bool} {l : List Command} {ls : List (List Command)}
    (h : List.Forall₂ (fun c lc => OpPhaseEq (semCmds r lc) (c.sem r)) l ls) :
    OpPhaseEq (semCmds r ls.flatten) (semCmds r l) := by
  induction h with
  | nil => exact OpPhaseEq.refl _
  | cons hd hr ih =>
    rename_i c lc l ls
    have e : semCmds r (lc :: ls).flatten = fun ψ => semCmds r ls.flatten (semCmds r lc ψ) := by
      funext ψ; rw [List.flatten_cons, semCmds_append]
    rw [e]
    have h3 := OpPhaseEq.comp (semCmds_homog r _) ih hd
    exact h3

end Graphix
