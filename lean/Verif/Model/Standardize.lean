import Verif.Model.Pattern
import Mathlib.Data.Sym.Sym2

/-!
# Model of `graphix/optimization.py` (`StandardizedPattern`)

Python's `frozenset[frozenset[Node]]` of edges is a `Finset (Sym2 ℕ)`; a singleton frozenset
(from `E((u, u))`) is a diagonal pair.  Iteration over that set has no specified order: functions
that iterate take the enumeration as an argument and theorems quantify over all enumerations.
-/

namespace Graphix

open scoped symmDiff

/-- `optimization.py:69-87` `_StandardizedPattern` (inputs and outputs are kept by `StdPattern`). -/
structure StdBody where
  nList : List (ℕ × PlanarState)
  eSet : Finset (Sym2 ℕ)
  mList : List MCmd
  zDict : PyDict ℕ (Finset ℕ)
  xDict : PyDict ℕ (Finset ℕ)
  cDict : PyDict ℕ Clifford

/-- `optimization.py:90-150` `StandardizedPattern`. -/
structure StdPattern extends StdBody where
  inputs : List ℕ
  outputs : List ℕ

/-- `optimization.py:488-503` `_add_correction_domain`: an empty or missing previous domain is
replaced by a copy. -/
def addCorrectionDomain (d : PyDict ℕ (Finset ℕ)) (node : ℕ) (domain : Finset ℕ) :
    PyDict ℕ (Finset ℕ) :=
  match PyDict.get? d node with
  | none => d.set node domain
  | some prev => if prev ≠ ∅ then d.set node (prev ∆ domain) else d.set node domain

/-- `optimization.py:506-530` `_commute_clifford`. -/
def commuteClifford (gate : Clifford) (c : PyDict ℕ Clifford) (j : ℕ) :
    Except PyErr (PyDict ℕ Clifford) :=
  if gate = Clifford.I ∨ gate = Clifford.Z ∨ gate = Clifford.S ∨ gate = Clifford.SDG then .ok c
  else if gate = Clifford.X ∨ gate = Clifford.Y ∨ gate = Clifford.ofFin 9 ∨ gate = Clifford.ofFin 10 then
    .ok (c.set j (Clifford.Z.mul ((PyDict.get? c j).getD Clifford.I)))
  else .error .notImplementedError

namespace StdBody

/-- The empty accumulators (`optimization.py:160-165`). -/
def init : StdBody := ⟨[], ∅, [], [], [], []⟩

/-- One side of the `E` case (`optimization.py:180-184`).  `if clifford_gate := c_dict.get(i)`:
`Clifford` is a plain `Enum`, whose members are all truthy; a domain is truthy iff nonempty. -/
def edgeSide (b : StdBody) (i j : ℕ) : Except PyErr StdBody := do
  let c ← match PyDict.get? b.cDict i with
    | some gate => commuteClifford gate b.cDict j
    | none => .ok b.cDict
  let z := match PyDict.get? b.xDict i with
    | some s => if s ≠ ∅ then addCorrectionDomain b.zDict j s else b.zDict
    | none => b.zDict
  return { b with cDict := c, zDict := z }

/-- The `M` case (`optimization.py:187-204`). -/
noncomputable def measureCase (b : StdBody) (cmd : MCmd) : Except PyErr StdBody := do
  let cmd ← match PyDict.get? b.cDict cmd.node with
    | some gate => match cmd.clifford? gate with
      | some cmd => Except.ok cmd
      | none => Except.error .runtimeError
    | none => Except.ok cmd
  let t := ((PyDict.get? b.zDict cmd.node).getD ∅)
  let s := ((PyDict.get? b.xDict cmd.node).getD ∅)
  return { b with
    cDict := PyDict.erase b.cDict cmd.node
    zDict := PyDict.erase b.zDict cmd.node
    xDict := PyDict.erase b.xDict cmd.node
    mList := b.mList ++ [⟨cmd.node, cmd.measurement, cmd.sDomain ∆ s, cmd.tDomain ∆ t⟩] }

/-- The `X`/`Z` case (`optimization.py:205-216`). -/
def correctionCase (b : StdBody) (node : ℕ) (d : Domains) : Except PyErr StdBody :=
  match ((PyDict.get? b.cDict node).getD Clifford.I).commuteDomains? d with
  | none => .error .runtimeError
  | some d => .ok { b with
      zDict := if d.t ≠ ∅ then addCorrectionDomain b.zDict node d.t else b.zDict
      xDict := if d.s ≠ ∅ then addCorrectionDomain b.xDict node d.s else b.xDict }

/-- The body of the loop of `from_pattern` (`optimization.py:174-221`; `S` and `T` fall through). -/
noncomputable def step (b : StdBody) (cmd : Command) : Except PyErr StdBody :=
  match cmd with
  | .N n st => .ok { b with nList := b.nList ++ [(n, st)] }
  | .E u v => do
    let b ← b.edgeSide u v
    let b ← b.edgeSide v u
    return { b with eSet := b.eSet ∆ {s(u, v)} }
  | .M n m s t => b.measureCase ⟨n, m, s, t⟩
  | .X n d => b.correctionCase n ⟨d, ∅⟩
  | .Z n d => b.correctionCase n ⟨∅, d⟩
  | .C n c => .ok { b with
      cDict := PyDict.set b.cDict n (c.mul ((PyDict.get? b.cDict n).getD Clifford.I)) }
  | .S _ _ => .ok b
  | .T => .ok b

/-- The loop of `from_pattern`. -/
noncomputable def run (b : StdBody) : List Command → Except PyErr StdBody
  | [] => .ok b
  | c :: l => do
    let b ← b.step c
    run b l

end StdBody

namespace StdPattern

/-- `optimization.py:152-222` `StandardizedPattern.from_pattern`; a `RunnabilityError` is a
`PatternError`. -/
noncomputable def fromPattern (p : Pattern) : Except PyErr StdPattern :=
  match p.checkRunnability with
  | .error _ => .error .patternError
  | .ok _ => do
    let b ← StdBody.init.run p.seq
    return { b with inputs := p.inputs, outputs := p.outputs }

/-- The command list of `to_pattern` (`optimization.py:313-320`) for an enumeration of the edges. -/
def cmds (sp : StdPattern) (edges : List (ℕ × ℕ)) : List Command :=
  sp.nList.map (fun n => .N n.1 n.2) ++ edges.map (fun e => .E e.1 e.2) ++ sp.mList.map MCmd.toCmd ++
  sp.zDict.map (fun kv => .Z kv.1 kv.2) ++ sp.xDict.map (fun kv => .X kv.1 kv.2) ++
  sp.cDict.map (fun kv => .C kv.1 kv.2)

/-- `edges` is an order in which Python may enumerate the set of edges, each as an ordered pair. -/
def Enumerates (edges : List (ℕ × ℕ)) (E : Finset (Sym2 ℕ)) : Prop :=
  (edges.map (fun e => s(e.1, e.2))).Nodup ∧ (edges.map (fun e => s(e.1, e.2))).toFinset = E

/-- `optimization.py:308-322` `StandardizedPattern.to_pattern`: `for u, v in self.e_set` raises
`ValueError` on a singleton edge. -/
def toPattern (sp : StdPattern) (edges : List (ℕ × ℕ)) : Except PyErr Pattern :=
  if ∃ e ∈ edges, e.1 = e.2 then .error .valueError
  else ((Pattern.empty sp.inputs).extend (sp.cmds edges)).reorderOutputNodes sp.outputs

end StdPattern

/-- `optimization.py:39-66` `standardize`, for every order in which Python may enumerate the edge set:
`StandardizeResult p q` holds when `q` may be returned. -/
def StandardizeResult (p : Pattern) (q : Pattern) : Prop :=
  ∃ sp, StdPattern.fromPattern p = .ok sp ∧
    ∃ edges, StdPattern.Enumerates edges sp.eSet ∧ sp.toPattern edges = .ok q

end Graphix
