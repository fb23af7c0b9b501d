import Verif.Spec.Circuit
import Verif.Spec.Density
import Verif.PyDict

/-!
# Specification: runs of circuits

The outcomes of the measurements of a circuit are listed in the order of the instructions. The probabilities are those of quantum
mechanics: the squared norm (the trace) of the projected state.
-/

namespace Graphix

/-- The outcome of the `k`-th measurement. -/
def outcomeOf (ms : List Bool) (k : ℕ) : Bool := ms.getD k false

/-- The qubits measured by a circuit, in order. -/
def circMeasured (l : List Instr) : List ℕ := l.filterMap fun i => match i with | .M t _ => some t | _ => none

/-- The qubits of a register of `w` qubits that are not measured, in increasing order. -/
def circLive (w : ℕ) (l : List Instr) : List ℕ := (List.range w).filter (· ∉ circMeasured l)

/-- The state of the circuit `l` for the outcomes `ms`, not normalised. -/
noncomputable def circState (ψ₀ : QState) (l : List Instr) (ms : List Bool) : QState := semInstrs (outcomeOf ms) 0 l ψ₀

/-- The density operator of the circuit `l` for the outcomes `ms`, not normalised. -/
noncomputable def circDens (ρ₀ : QDens) (l : List Instr) (ms : List Bool) : QDens := conjBy (semInstrs (outcomeOf ms) 0 l) ρ₀

/-- The probability of the outcomes `ms`. -/
noncomputable def circProb (w : ℕ) (ρ₀ : QDens) (l : List Instr) (ms : List Bool) : ℂ := traceOn (circLive w l) (circDens ρ₀ l ms)

/-- The outcomes `ms` of the measurements of `l`, by qubit. -/
def circRecord (l : List Instr) (ms : List Bool) : PyDict ℕ Bool :=
  ((circMeasured l).zip ms).foldl (fun d p => d.set p.1 p.2) []

/-- Qubit `t` is measured along `a` after `l`, whose outcomes were `ms`: the branch selector is asked with these outcomes and with the
probability of outcome 0 given these outcomes, and answers `x`. -/
def CircAnswers (sel : PyDict ℕ Bool → ℕ → ℝ → Except PyErr Bool) (w : ℕ) (ρ₀ : QDens) (l : List Instr) (ms : List Bool) (t : ℕ) (a : Axis)
    (x : Except PyErr Bool) : Prop :=
  ∃ p0 : ℝ, 0 ≤ p0 ∧ p0 ≤ 1 ∧ circProb w ρ₀ l ms ≠ 0 ∧
    (∀ o, circProb w ρ₀ (l ++ [.M t a]) (ms ++ [o]) = ((if o then 1 - p0 else p0 : ℝ) : ℂ) * circProb w ρ₀ l ms) ∧
    sel (circRecord l ms) t p0 = x

/-- The outcomes `ms` are the answers of the branch selector. -/
def CircChosen (sel : PyDict ℕ Bool → ℕ → ℝ → Except PyErr Bool) (w : ℕ) (ρ₀ : QDens) (l : List Instr) (ms : List Bool) : Prop :=
  ms.length = (circMeasured l).length ∧ ∀ pre t a post, l = pre ++ .M t a :: post →
    CircAnswers sel w ρ₀ pre (ms.take (circMeasured pre).length) t a (.ok (outcomeOf ms (circMeasured pre).length))

/-- How a simulation can fail: at some measurement, either the branch selector raised, or it chose an outcome whose probability, given the
previous outcomes, is at most `tol`, and the error is `err`. -/
def CircFails (sel : PyDict ℕ Bool → ℕ → ℝ → Except PyErr Bool) (w : ℕ) (ρ₀ : QDens) (l : List Instr) (tol : ℝ) (err e : PyErr) : Prop :=
  ∃ pre t a post ms, l = pre ++ .M t a :: post ∧ CircChosen sel w ρ₀ pre ms ∧
    (CircAnswers sel w ρ₀ pre ms t a (.error e) ∨
      ∃ o, CircAnswers sel w ρ₀ pre ms t a (.ok o) ∧ e = err ∧
        ‖circProb w ρ₀ (pre ++ [.M t a]) (ms ++ [o])‖ ≤ tol * ‖circProb w ρ₀ pre ms‖)

end Graphix
