import Verif.Model.Command

/-!
# Specification: runnable command sequences

Stated by position, without a running state: for every way of cutting the sequence as
`pre ++ cmd :: post`, the command `cmd` is allowed after `pre`.
-/

namespace Graphix

/-- Nodes introduced (as inputs or by `N`) before the cut. -/
def introduced (inputs : List ℕ) (pre : List Command) : List ℕ :=
  inputs ++ pre.filterMap Command.prepared?

/-- Nodes measured before the cut. -/
def measuredIn (pre : List Command) : List ℕ := pre.filterMap Command.measured?

/-- A node that has been introduced and not measured. -/
def Live (inputs : List ℕ) (pre : List Command) (n : ℕ) : Prop :=
  n ∈ introduced inputs pre ∧ n ∉ measuredIn pre

/-- The command may be executed after `pre`. -/
def Allowed (inputs : List ℕ) (pre : List Command) : Command → Prop
  | .N n _ => n ∉ introduced inputs pre
  | .M n _ s t => Live inputs pre n ∧ (∀ k ∈ s, k ∈ measuredIn pre) ∧ (∀ k ∈ t, k ∈ measuredIn pre)
  | .E u v => Live inputs pre u ∧ Live inputs pre v
  | .C n _ => Live inputs pre n
  | .X n d => Live inputs pre n ∧ ∀ k ∈ d, k ∈ measuredIn pre
  | .Z n d => Live inputs pre n ∧ ∀ k ∈ d, k ∈ measuredIn pre
  | .S _ _ => True
  | .T => True

/-- Every command of the sequence is allowed where it stands. -/
def Runnable (inputs : List ℕ) (cmds : List Command) : Prop :=
  ∀ pre cmd post, cmds = pre ++ cmd :: post → Allowed inputs pre cmd

end Graphix
