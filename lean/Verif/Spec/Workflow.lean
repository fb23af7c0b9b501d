import Verif.Model.Workflow
import Verif.Props.RemovePauli
import Verif.Props.PatternMin
import Verif.Props.Simplify
import Verif.Props.PatternMap
import Verif.Props.PauliPushing

/-!
# What optimizing a pattern must preserve
-/

namespace Graphix

/-- The nodes on which a command acts, but for Clifford commands. -/
def Command.actsOn : Command → List ℕ
  | .N n _ => [n]
  | .E u v => [u, v]
  | .M n _ _ _ => [n]
  | .X n _ => [n]
  | .Z n _ => [n]
  | .C _ _ => []
  | .S n _ => [n]
  | .T => []

/-- A node is not used any more after a Clifford command on it (except by other Clifford commands). -/
def CliffordsLast (l : List Command) : Prop := l.Pairwise fun c c' => ∀ n g, c = .C n g → n ∉ c'.actsOn

/-- The patterns that the library builds, and that the methods that optimize patterns accept: runnable, with the unmeasured nodes as outputs, without
signal commands, without a self-entangling `E`, with preparations in `|+⟩`, and with Clifford commands after the other commands of their nodes. -/
structure Tidy (p : Pattern) : Prop where
  outputs : p.OutputsOk
  runnable : p.checkRunnability = .ok ()
  noSignal : ∀ n d, Command.S n d ∉ p.seq
  noLoop : ∀ u v, Command.E u v ∈ p.seq → u ≠ v
  plus : ∀ n st, Command.N n st ∈ p.seq → st = PlanarState.plus
  cliffords : CliffordsLast p.seq

/-- The arguments are valid: orders in which sets are enumerated are permutations of the sets; tolerances are not negative, and only exact multiples
of `π/2` are within the tolerance. -/
def OptCall.Ok (p : Pattern) : OptCall → Prop
  | standardize _ eo => eo.Valid
  | shiftSignals => True
  | inferPauliMeasurements rel abs' _ => 0 ≤ rel ∧ 0 ≤ abs' ∧ ∀ n b s t, Command.M n (.bloch b) s t ∈ p.seq →
      ∀ k : ℤ, |2 * b.angle - k| ≤ max (rel * max |2 * b.angle| |(k : ℝ)|) abs' → 2 * b.angle = k
  | blochify _ => True
  | removeUselessDomains => True
  | singleQubitDomains orders => IterationOrders orders 0 p.seq
  | performPauliPushing _ _ _ edges nbr => EnumOrd.Valid edges ∧ NbrOrd.Valid nbr
  | removePauliMeasurements _ _ order edges nbr => (∀ p s x, x ∈ order p s ↔ x ∈ s) ∧ EnumOrd.Valid edges ∧ NbrOrd.Valid nbr
  | minimizeSpace _ ord choose edges nbr => ord.Valid ∧ ChooseOk choose ∧ EnumOrd.Valid edges ∧ NbrOrd.Valid nbr

/-- All calls of a script have valid arguments. -/
def OptCall.AllOk (p : Pattern) : List OptCall → Prop
  | [] => True
  | c :: l => c.Ok p ∧ ∀ q w, c.run p = .ok (q, w) → AllOk q l

/-- `q` does the computation of `p`: node `n` of `q` is node `σ n` of `p`; each branch of `q` does what some branch of `p` does, up to a scalar that
accounts, when no warning was given, for the probability 1/2 of each measurement that was removed. -/
structure Optimized (p q : Pattern) (warnings : ℕ) (σ : Equiv.Perm ℕ) : Prop where
  inputs : q.inputs = p.inputs
  fixed : ∀ i ∈ p.inputs, σ i = i
  outputs : q.outputs.map σ = p.outputs
  prepared : q.preparedNodes ⊆ p.preparedNodes
  measured : ∀ n ∈ measuredIn q.seq, σ n ∈ measuredIn p.seq
  sem : ∀ r : ℕ → Bool, ∃ r₀ : ℕ → Bool, ∃ c : ℂ,
    (warnings = 0 → ‖c‖ = (1 / Real.sqrt 2) ^ (p.preparedNodes.card - q.preparedNodes.card)) ∧
    ∀ ψ, Absent p.preparedNodes ψ → semCmds r₀ p.seq ψ = c • ren σ (semCmds r q.seq ψ)

end Graphix
