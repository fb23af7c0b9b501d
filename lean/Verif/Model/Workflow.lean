import Verif.Model.PatternViews
import Verif.Model.PatternMin
import Verif.Model.PauliPushing
import Verif.Model.RemovePauli
import Verif.Model.Simplify

/-!
# Model of a session with the methods that optimize a pattern (`README.md:50-70`, `examples/mbqc_vqe.py:94-97`)

A script calls these methods one after the other on the same pattern. A call carries its arguments and the choices that Python makes (the orders in
which sets are enumerated). Parameters `edges` and `nbr` give, for a set of edges, the orders in which the edges and the neighbours of a node are
enumerated.
-/

namespace Graphix

/-- A call of one of the methods that optimize a pattern. -/
inductive OptCall
  | standardize (copy : Bool) (eo : GraphOrd)
  | shiftSignals
  | inferPauliMeasurements (relTol absTol : ℝ) (copy : Bool)
  | blochify (copy : Bool)
  | removeUselessDomains
  | singleQubitDomains (orders : ℕ → List ℕ × List ℕ)
  | performPauliPushing (leave : Finset ℕ) (copy std : Bool) (edges : Finset (Sym2 ℕ) → List (ℕ × ℕ)) (nbr : Finset (Sym2 ℕ) → ℕ → List ℕ)
  | removePauliMeasurements (copy std : Bool) (order : Rpm → Finset ℕ → List ℕ) (edges : Finset (Sym2 ℕ) → List (ℕ × ℕ))
      (nbr : Finset (Sym2 ℕ) → ℕ → List ℕ)
  | minimizeSpace (copy : Bool) (ord : SetOrd) (choose : (ℕ → ℕ) → Finset ℕ → ℕ) (edges : Finset (Sym2 ℕ) → List (ℕ × ℕ))
      (nbr : Finset (Sym2 ℕ) → ℕ → List ℕ)

namespace OptCall

/-- The pattern after the call: the one that is returned (`copy=True`, and the functions of `optimization.py`) or the same object changed in place; with
the number of warnings about isolated nodes. `optimization.py:39-66` and `pattern.py:581-588` `standardize`, `pattern.py:626-681` `shift_signals()` (method `direct`),
`pattern.py:1759-1790` `infer_pauli_measurements`, `pattern.py:1792-1818` `blochify`, `optimization.py:554-572` `remove_useless_domains`,
`optimization.py:575-610` `single_qubit_domains`, `pattern.py:1837-1886` `perform_pauli_pushing`, `pattern.py:1888-1926`
`remove_pauli_measurements`, `pattern.py:1307-1341` `minimize_space()`. -/
noncomputable def run (p : Pattern) : OptCall → Except PyErr (Pattern × ℕ)
  | standardize copy eo => do
    let q ← if copy then p.standardizeWith eo else p.standardizeInPlace eo
    return (q, 0)
  | shiftSignals => .ok (p.shiftSignalsDirect.1, 0)
  | inferPauliMeasurements relTol absTol copy => do
    let q ← p.inferPauliMeasurements relTol absTol copy
    return (q, 0)
  | blochify copy => do
    let q ← p.blochify copy
    return (q, 0)
  | removeUselessDomains => do
    let q ← Graphix.removeUselessDomains p
    return (q, 0)
  | singleQubitDomains orders => do
    let q ← Graphix.singleQubitDomains orders p
    return (q, 0)
  | performPauliPushing leave copy std edges nbr => do
    let sp ← StdPattern.fromPattern p
    let q ← if std then p.performPauliPushingStd leave (edges sp.eSet) else p.performPauliPushing leave (nbr sp.eSet)
    return (if copy then q else { p with seq := q.seq }, 0)
  | removePauliMeasurements copy std order edges nbr => do
    let (q, warnings) ← p.removePauliMeasurements order (fun sp => nbr sp.eSet) (fun sp => edges sp.eSet) std
    return (if copy then q else { p with seq := q.seq, outputs := q.outputs }, warnings)
  | minimizeSpace copy ord choose edges nbr => do
    let hs := defaultHeuristics edges ord choose
    let q ← if copy then p.minimizeSpaceCopy nbr hs else p.minimizeSpace nbr hs
    return (q, 0)

/-- A script: calls one after the other, with the total number of warnings. -/
noncomputable def runAll (p : Pattern) : List OptCall → Except PyErr (Pattern × ℕ)
  | [] => .ok (p, 0)
  | c :: l => do
    let (q, w) ← c.run p
    let (q', w') ← runAll q l
    return (q', w + w')

end OptCall
end Graphix
