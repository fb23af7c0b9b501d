import Verif.Spec.Density
import Verif.Spec.Runnable
import Verif.Model.Noise

/-!
# Specification: what a sequence of commands and noises does to a density operator

A run has two families of bits: `out n`, the outcome of the projection of node `n`, and `rcd n`, the outcome that is recorded (they
differ when the noise model confuses results). Domains refer to recorded outcomes.
-/

namespace Graphix

/-- Meaning of a command: the projection is on `out`, the domains are evaluated on `rcd`. -/
noncomputable def Command.semRec (rcd out : ℕ → Bool) : Command → QState → QState
  | .M n m s t, ψ => projOut n (measVec m (out n)) (op1 (powB Ops.X (parity rcd s)) n (op1 (powB Ops.Z (parity rcd t)) n ψ))
  | c, ψ => c.sem rcd ψ

/-- Is the noise applied? Its domain, if any, has odd parity. -/
def ApplyNoise.active (rcd : ℕ → Bool) (a : ApplyNoise) : Bool :=
  match a.domain with
  | none => true
  | some d => parity rcd d

/-- Meaning of a command or noise; `chan` gives the Kraus operators of the noises. -/
noncomputable def CmdOrNoise.dens (chan : Noise → List (ℂ × (List Bool → List Bool → ℂ))) (rcd out : ℕ → Bool) :
    CmdOrNoise → QDens → QDens
  | .cmd c, ρ => conjBy (c.semRec rcd out) ρ
  | .noise a, ρ => if a.active rcd then krausN (chan a.noise) a.nodes ρ else ρ

/-- Meaning of a sequence. -/
noncomputable def densCmds (chan : Noise → List (ℂ × (List Bool → List Bool → ℂ))) (rcd out : ℕ → Bool) (l : List CmdOrNoise)
    (ρ : QDens) : QDens := l.foldl (fun ρ c => c.dens chan rcd out ρ) ρ

/-- `(recorded outcome, number of draws so far)` for the outcome `o`. -/
def confuseOf (confuse : Option ((ℕ → ℝ) → ℕ → Bool → Bool × ℕ)) (draw : ℕ → ℝ) (k : ℕ) (o : Bool) : Bool × ℕ :=
  match confuse with
  | none => (o, k)
  | some f => f draw k o

/-- The recorded outcomes when the nodes `ns` are measured in this order with outcomes `out`, and the number of draws. -/
def recordAll (confuse : Option ((ℕ → ℝ) → ℕ → Bool → Bool × ℕ)) (draw : ℕ → ℝ) (out : ℕ → Bool) (ns : List ℕ) : PyDict ℕ Bool × ℕ :=
  ns.foldl (fun st n => (st.1.set n (confuseOf confuse draw st.2 (out n)).1, (confuseOf confuse draw st.2 (out n)).2)) ([], 0)

theorem Command.semRec_self (r : ℕ → Bool) (c : Command) : c.semRec r r = c.sem r := by cases c <;> rfl

theorem Command.semRec_lin (rcd out : ℕ → Bool) (c : Command) : Lin (c.semRec rcd out) := by
  cases c with
  | M n m s t => exact (Lin.projOut _ _).comp ((Lin.op1 _ _).comp (Lin.op1 _ _))
  | N n s => exact Command.sem_lin rcd (.N n s)
  | E u v => exact Command.sem_lin rcd (.E u v)
  | C n c => exact Command.sem_lin rcd (.C n c)
  | X n d => exact Command.sem_lin rcd (.X n d)
  | Z n d => exact Command.sem_lin rcd (.Z n d)
  | S n d => exact Command.sem_lin rcd (.S n d)
  | T => exact Command.sem_lin rcd .T

theorem densCmds_append (chan : Noise → List (ℂ × (List Bool → List Bool → ℂ))) (rcd out : ℕ → Bool) (l l' : List CmdOrNoise)
    (ρ : QDens) : densCmds chan rcd out (l ++ l') ρ = densCmds chan rcd out l' (densCmds chan rcd out l ρ) := by
  simp [densCmds, List.foldl_append]

end Graphix
