import Verif.Model.Standardize
import Verif.Model.FlowOrder

/-!
# Model of `graphix/optimization.py`: open graph, measurement order and corrections of a standardized pattern
-/

namespace Graphix

namespace StdPattern

/-- `optimization.py:224-237` `graph`: the nodes of the networkx graph. `edges` is the order in which the edges of the
graph are enumerated (see `Enumerates`). -/
def graphNodes (sp : StdPattern) (edges : List (ℕ × ℕ)) : Finset ℕ :=
  sp.inputs.toFinset ∪ (sp.nList.map Prod.fst).toFinset ∪ (edges.map Prod.fst).toFinset ∪ (edges.map Prod.snd).toFinset

/-- `optimization.py:338-356` `to_opengraph`: `ValueError` for an `N` command of another state than `|+⟩`, then
`graph` (`for u, v in self.e_set` raises `ValueError` for an edge that is a singleton), then `OpenGraph.__post_init__`. -/
noncomputable def toOpenGraph (sp : StdPattern) (edges : List (ℕ × ℕ)) : Except PyErr OpenGraph := by
  classical exact
  if ∃ n ∈ sp.nList, n.2 ≠ PlanarState.plus then .error .valueError
  else if ∃ e ∈ edges, e.1 = e.2 then .error .valueError
  else
    let og : OpenGraph := ⟨sp.graphNodes edges, edges, sp.inputs, sp.outputs,
      sp.mList.foldl (fun d m => PyDict.set d m.node m.measurement) [], sp.cDict⟩
    match og.postInit with
    | .error e => .error e
    | .ok _ => .ok og

/-- `optimization.py:391-398` `process_domain`, the body of the loop: `e` is `(dep_node, node)`; `dag[dep_node]` may raise
`KeyError`. -/
def processPair (excluded : Finset ℕ) (st : PyDict ℕ (Finset ℕ) × PyDict ℕ ℤ) (e : ℕ × ℕ) :
    Except PyErr (PyDict ℕ (Finset ℕ) × PyDict ℕ ℤ) :=
  if e.1 ∈ excluded ∨ e.2 ∈ excluded then .ok st
  else match st.1.get? e.1 with
    | none => .error .keyError
    | some ch =>
      if e.2 ∉ ch then .ok (st.1.set e.1 (insert e.2 ch), st.2.set e.2 ((st.2.get? e.2).getD 0 + 1)) else .ok st

/-- The pairs `(dep_node, node)` in the order of the calls of `process_domain` (`optimization.py:401-408`). -/
def domainPairs (sp : StdPattern) (ord : SetOrd) : List (ℕ × ℕ) :=
  (sp.mList.flatMap fun m => (ord 11 m.node (m.sDomain ∪ m.tDomain)).map fun d => (d, m.node)) ++
  (sp.zDict.flatMap fun kv => (ord 12 kv.1 kv.2).map fun d => (d, kv.1)) ++
  (sp.xDict.flatMap fun kv => (ord 13 kv.1 kv.2).map fun d => (d, kv.1))

/-- `optimization.py:358-416` `partial_order_layers`. -/
def partialOrderLayers (sp : StdPattern) (ord : SetOrd) : Except PyErr (List (Finset ℕ)) := do
  let oset := sp.outputs.toFinset
  let zeroIndegree := (sp.inputs.toFinset ∪ (sp.nList.map Prod.fst).toFinset) \ oset
  let dag : PyDict ℕ (Finset ℕ) := (ord 14 0 zeroIndegree).map fun n => (n, ∅)
  let st ← (sp.domainPairs ord).foldlM (processPair oset) (dag, [])
  let generations ← computeTopologicalGenerations (fun n => st.1.get? n) (ord 15 0) st.2
    (zeroIndegree \ st.2.keys.toFinset)
  match generations with
  | none => .error .valueError
  | some gs => if oset ≠ ∅ then return oset :: gs.reverse else return gs.reverse

/-- `optimization.py:533-551` `_update_corrections`. -/
def updateCorrections (ord : Finset ℕ → List ℕ) (node : ℕ) (domain : Finset ℕ) (c : PyDict ℕ (Finset ℕ)) :
    PyDict ℕ (Finset ℕ) :=
  (ord domain).foldl (fun c u => c.set u (insert node ((c.get? u).getD ∅))) c

/-- `optimization.py:433-445`: the dictionaries `x_corr` and `z_corr`. -/
def corrections (sp : StdPattern) (ord : SetOrd) : PyDict ℕ (Finset ℕ) × PyDict ℕ (Finset ℕ) :=
  let x := sp.mList.foldl (fun c m => updateCorrections (ord 16 m.node) m.node m.sDomain c) []
  let z := sp.mList.foldl (fun c m => updateCorrections (ord 17 m.node) m.node m.tDomain c) []
  (sp.xDict.foldl (fun c kv => updateCorrections (ord 18 kv.1) kv.1 kv.2 c) x,
   sp.zDict.foldl (fun c kv => updateCorrections (ord 19 kv.1) kv.1 kv.2 c) z)

/-- `optimization.py:418-450` `to_xzcorrections`. -/
noncomputable def toXZCorrections (sp : StdPattern) (edges : List (ℕ × ℕ)) (ord : SetOrd) : Except PyErr XZCorrections := do
  let c := sp.corrections ord
  let og ← sp.toOpenGraph edges
  XZCorrections.fromMeasuredNodesMapping og ord c.1 c.2

end StdPattern

end Graphix
