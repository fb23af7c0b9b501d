import Verif.Model.SpaceMin
import Verif.Model.PatternFlow

/-!
# Model of `Pattern.minimize_space` with the default heuristics

`enum`, `ord`, `choose` and `nbr` are the choices that Python makes: the order in which it enumerates the edges of the standardized pattern, the
sets of nodes, the candidates of least degree in `min`, and the neighbours of a node.
-/

namespace Graphix

/-- The body of the `try` of `causal_flow` (`space_minimization.py:195`). -/
noncomputable def StdPattern.causalFlowOf (enum : Finset (Sym2 ℕ) → List (ℕ × ℕ)) (ord : SetOrd) (sp : StdPattern) : Except PyErr Flow := do
  let xz ← sp.toXZCorrections (enum sp.eSet) ord
  let xz ← xz.downcastBloch
  xz.toCausalFlow ord

/-- `space_minimization.py:199`: `tuple(chain(*reversed(cf.partial_order_layers[1:])))`; each layer is a set, enumerated at the site 31. -/
def Flow.measurementOrder (f : Flow) (ord : SetOrd) : List ℕ := (f.layers.drop 1).reverse.flatMap (ord 31 0)

/-- `space_minimization.py:188-200` `causal_flow`: `TypeError` and `FlowError` are caught, the other exceptions are not. -/
noncomputable def StdPattern.causalFlowHeuristic (enum : Finset (Sym2 ℕ) → List (ℕ × ℕ)) (ord : SetOrd) : StdPattern.Heuristic := fun sp =>
  match sp.causalFlowOf enum ord with
  | .error .typeError => .ok none
  | .error .flowError => .ok none
  | .error e => .error e
  | .ok f => .ok (some ⟨f.measurementOrder ord, true⟩)

/-- `space_minimization.py:241-245` `DEFAULT_HEURISTICS`. -/
noncomputable def defaultHeuristics (enum : Finset (Sym2 ℕ) → List (ℕ × ℕ)) (ord : SetOrd) (choose : (ℕ → ℕ) → Finset ℕ → ℕ) :
    List StdPattern.Heuristic :=
  [StdPattern.causalFlowHeuristic enum ord, StdPattern.greedyDegree choose, StdPattern.orderUnchanged]

/-- `pattern.py:1337`: `StandardizedPattern.from_pattern(self).minimize_space(heuristics).to_space_optimal_pattern()`, what
`minimize_space(heuristics, copy=True)` returns. -/
noncomputable def Pattern.minimizeSpaceCopy (p : Pattern) (nbr : Finset (Sym2 ℕ) → ℕ → List ℕ) (heuristics : List StdPattern.Heuristic) :
    Except PyErr Pattern := do
  let sp ← StdPattern.fromPattern p
  let sp' ← sp.minimizeSpace (nbr sp.eSet) heuristics
  sp'.toSpaceOptimalPattern (nbr sp'.eSet)

/-- `pattern.py:1307-1341` `minimize_space(heuristics)`: the pattern after the call, in place: only the sequence of commands is replaced. -/
noncomputable def Pattern.minimizeSpace (p : Pattern) (nbr : Finset (Sym2 ℕ) → ℕ → List ℕ) (heuristics : List StdPattern.Heuristic) :
    Except PyErr Pattern := do
  let new ← p.minimizeSpaceCopy nbr heuristics
  return { p with seq := new.seq }

end Graphix
