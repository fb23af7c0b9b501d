import Verif.PyDict
import Verif.Model.Pattern

/-!
# Model of `graphix/flow/_partial_order.py`
-/

namespace Graphix

namespace TopoGen

/-- The lookup `dag[node]` (a dict or a `defaultdict`); `none` is a `KeyError`. -/
abbrev Dag := ℕ → Option (Finset ℕ)

/-- The variables updated by the loops: `indegree_map`, `zero_indegree`. -/
structure St where
  indeg : PyDict ℕ ℤ
  zero : Finset ℕ

/-- `flow/_partial_order.py:46-49`: the body of the loop over the children. -/
def child (st : St) (c : ℕ) : Except PyErr St :=
  match st.indeg.get? c with
  | none => .error .keyError
  | some d =>
    let indeg := st.indeg.set c (d - 1)
    if d - 1 = 0 then .ok ⟨indeg.erase c, insert c st.zero⟩
    else .ok ⟨indeg, st.zero⟩

/-- The loop over the children of a node, in the order `l`. -/
def children (st : St) : List ℕ → Except PyErr St
  | [] => .ok st
  | c :: l => do
    let st ← child st c
    children st l

/-- `flow/_partial_order.py:44-49`: the loop over the nodes of a generation, in the order of the list; `ord` is the
order in which Python iterates over a set. -/
def nodes (dag : Dag) (ord : Finset ℕ → List ℕ) (st : St) : List ℕ → Except PyErr St
  | [] => .ok st
  | n :: l => do
    match dag n with
    | none => .error .keyError
    | some ch => do
      let st ← children st (ord ch)
      nodes dag ord st l

/-- `flow/_partial_order.py:41-50`: the `while` loop. The fuel bounds the number of iterations; each iteration but
the last deletes a key, so that `indegree_map.length + 2` is enough (the proofs show that it is never exhausted). -/
def loop (dag : Dag) (ord : Finset ℕ → List ℕ) : ℕ → St → List (Finset ℕ) → Except PyErr (PyDict ℕ ℤ × List (Finset ℕ))
  | 0, _, _ => .error .runtimeError
  | fuel + 1, st, generations =>
    if st.zero = ∅ then .ok (st.indeg, generations)
    else do
      let st' ← nodes dag ord ⟨st.indeg, ∅⟩ (ord st.zero)
      loop dag ord fuel st' (generations ++ [st.zero])

end TopoGen

/-- `flow/_partial_order.py:12-54` `compute_topological_generations`. -/
def computeTopologicalGenerations (dag : TopoGen.Dag) (ord : Finset ℕ → List ℕ) (indegreeMap : PyDict ℕ ℤ)
    (zeroIndegree : Finset ℕ) : Except PyErr (Option (List (Finset ℕ))) := do
  let (indeg, generations) ← TopoGen.loop dag ord (indegreeMap.length + 2) ⟨indegreeMap, zeroIndegree⟩ []
  return if indeg ≠ [] then none else some generations

end Graphix
