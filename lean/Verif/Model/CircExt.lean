import Verif.Model.Circuit
import Verif.Model.Flow
import Verif.Model.Linalg

/-!
# Model of `graphix/circ_ext/extraction.py` (Pauli strings, Clifford maps) and `graphix/circ_ext/compilation.py`

A one-dimensional binary array is a function `ℕ → ZMod 2` with its length, a tableau is a `GF2` matrix with its shape.
Strings are lists of characters.
-/

namespace Graphix

/-- `circ_ext/extraction.py:75-95` `class PauliString`. -/
structure PauliString where
  dim : ℕ
  axes : PyDict ℕ Axis
  sign : Sign

namespace PauliString

/-- `==` of two Pauli strings (a dataclass): the dictionaries are compared without order. -/
def Eq (p q : PauliString) : Prop := p.dim = q.dim ∧ (∀ i, p.axes.get? i = q.axes.get? i) ∧ p.sign = q.sign

/-- `Axis[op]` (`KeyError` is not reachable: the characters have been checked), `op in Axis.__members__`. -/
def axisOfChar : Char → Option Axis
  | 'X' => some .X
  | 'Y' => some .Y
  | 'Z' => some .Z
  | _ => none

/-- `axis.name`. -/
def charOfAxis : Axis → Char
  | .X => 'X'
  | .Y => 'Y'
  | .Z => 'Z'

/-- `extraction.py:158`: the dictionary comprehension, from position `i`. -/
def axesOfChars : ℕ → List Char → PyDict ℕ Axis
  | _, [] => []
  | i, c :: l => match axisOfChar c with
    | some a => (i, a) :: axesOfChars (i + 1) l
    | none => axesOfChars (i + 1) l

/-- `extraction.py:97-159` `from_str`. -/
def fromStr (s : List Char) : Except PyErr PauliString :=
  match s with
  | [] => .ok ⟨0, [], .plus⟩
  | c :: l => do
    let (sign, ops) ←
      if c = '+' then pure (Sign.plus, l)
      else if c = '-' then pure (Sign.minus, l)
      else if c = 'X' ∨ c = 'Y' ∨ c = 'Z' ∨ c = 'I' then pure (Sign.plus, c :: l)
      else throw .valueError
    if ops.any fun op => (axisOfChar op).isNone && op ≠ 'I' then throw .valueError
    return ⟨ops.length, axesOfChars 0 ops, sign⟩

/-- `extraction.py:161-168` `__str__` (with `Sign.__str__`, `fundamentals.py:76-80`). -/
def str (p : PauliString) : List Char :=
  (match p.sign with | .plus => '+' | .minus => '-') ::
    (List.range p.dim).map fun node => match p.axes.get? node with | some a => charOfAxis a | none => 'I'

/-- `extraction.py:229-236`: the loop of `from_tableau` from position `i`, over `m` positions. -/
def axesOfBits (dim : ℕ) (t : ℕ → ZMod 2) : ℕ → ℕ → PyDict ℕ Axis
  | _, 0 => []
  | i, m + 1 =>
    if t i = 1 ∧ t (dim + i) = 0 then (i, .X) :: axesOfBits dim t (i + 1) m
    else if t i = 0 ∧ t (dim + i) = 1 then (i, .Z) :: axesOfBits dim t (i + 1) m
    else if t i = 1 ∧ t (dim + i) = 1 then (i, .Y) :: axesOfBits dim t (i + 1) m
    else axesOfBits dim t (i + 1) m

/-- `extraction.py:170-238` `from_tableau` of a one-dimensional array of length `len`. -/
def fromTableau (len : ℕ) (t : ℕ → ZMod 2) : Except PyErr PauliString :=
  if len % 2 = 0 then .error .valueError
  else .ok ⟨len / 2, axesOfBits (len / 2) t 0 (len / 2), Sign.minusIf (decide (t (len - 1) = 1))⟩

/-- `tab[i] = 1` on an array of length `len`. -/
def setBit (len : ℕ) (t : ℕ → ZMod 2) (i : ℕ) : Except PyErr (ℕ → ZMod 2) :=
  if i < len then .ok (Function.update t i 1) else .error .indexError

/-- `extraction.py:270-274`: the loop of `to_tableau`. -/
def toTableauLoop (dim : ℕ) : List (ℕ × Axis) → (ℕ → ZMod 2) → Except PyErr (ℕ → ZMod 2)
  | [], t => .ok t
  | (i, ax) :: l, t => do
    let t ← if ax = .X ∨ ax = .Y then setBit (2 * dim + 1) t i else pure t
    let t ← if ax = .Y ∨ ax = .Z then setBit (2 * dim + 1) t (i + dim) else pure t
    toTableauLoop dim l t

/-- `extraction.py:240-279` `to_tableau`: an array of length `2 * dim + 1`. -/
def toTableau (p : PauliString) : Except PyErr (ℕ → ZMod 2) := do
  let t ← toTableauLoop p.dim p.axes fun _ => 0
  if p.sign = .minus then setBit (2 * p.dim + 1) t (2 * p.dim) else return t

end PauliString

/-- `extraction.py:282-303` `class PauliExponential`. -/
structure PauliExponential where
  angle : ℝ
  ps : PauliString

/-- `extraction.py:337-364` `class PauliExponentialDAG`. -/
structure PauliExponentialDAG where
  pexps : PyDict ℕ PauliExponential
  layers : List (Finset ℕ)
  outputs : List ℕ

/-- `extraction.py:394-444` `class CliffordMap`. -/
structure CliffordMap where
  xMap : List PauliString
  zMap : List PauliString
  inputs : List ℕ
  outputs : List ℕ

namespace CliffordMap

/-- The rows of `np.vstack`, one after the other. -/
def rowsOf : List PauliString → Except PyErr (List (ℕ × (ℕ → ZMod 2)))
  | [] => .ok []
  | p :: l => do
    let t ← p.toTableau
    let r ← rowsOf l
    return (2 * p.dim + 1, t) :: r

/-- `extraction.py:473-508` `to_tableau`. `np.vstack` raises on an empty list and when the rows have different lengths.
The shape of the result is `(rows, columns)`. -/
def toTableau (cm : CliffordMap) : Except PyErr ((ℕ × ℕ) × GF2) := do
  if cm.inputs.length ≠ cm.outputs.length then throw .notImplementedError
  let rows ← rowsOf (cm.xMap ++ cm.zMap)
  match rows with
  | [] => throw .valueError
  | (w, t) :: l =>
    if l.any fun r => decide (r.1 ≠ w) then throw .valueError
    return ((rows.length, w), fun i j => ((rows.map Prod.snd).getD i t) j)

end CliffordMap

namespace Pexp

/-- `compilation.py:138-172` `add_basis_change` and `add_hy`: the instructions, or none. -/
noncomputable def basisChange (p : PauliString) (q : ℕ) : Except PyErr (List Instr) :=
  match p.axes.get? q with
  | none => .error .keyError
  | some .X => .ok [.H q]
  | some .Y => .ok [.RZ q (1 / 2), .RY q (1 / 2), .RZ q (1 / 2)]
  | some .Z => .ok []

/-- `transpiler.py:337-357` `Circuit.r`. -/
def rInstr (q : ℕ) (a : Axis) (θ : ℝ) : Instr :=
  match a with
  | .X => .RX q θ
  | .Y => .RY q θ
  | .Z => .RZ q θ

/-- `itertools.pairwise`. -/
def pairwise : List ℕ → List (ℕ × ℕ)
  | a :: b :: l => (a, b) :: pairwise (b :: l)
  | _ => []

/-- `compilation.py:126-128`: the first ladder. -/
noncomputable def ladderDown (p : PauliString) : List (ℕ × ℕ) → Circuit → Except PyErr Circuit
  | [], c => .ok c
  | (q1, q2) :: l, c => do
    let c ← c.extend (← basisChange p q2)
    let c ← c.add (.CNOT q1 q2)
    ladderDown p l c

/-- `compilation.py:132-134`: the second ladder; a pair is `(q2, q1)`. -/
noncomputable def ladderUp (p : PauliString) : List (ℕ × ℕ) → Circuit → Except PyErr Circuit
  | [], c => .ok c
  | (q2, q1) :: l, c => do
    let c ← c.add (.CNOT q1 q2)
    let c ← c.extend (← basisChange p q2)
    ladderUp p l c

open Classical in
/-- `compilation.py:95-136` `add_pexp`. -/
noncomputable def addPexp (e : PauliExponential) (c : Circuit) : Except PyErr Circuit :=
  if e.angle = 0 then .ok c
  else
    let qs := e.ps.axes.keys
    let angle : ℝ := -2 * e.angle * e.ps.sign.toInt
    match qs with
    | [] => .ok c
    | [q0] =>
      match e.ps.axes.get? q0 with
      | none => .error .keyError
      | some a => c.add (rInstr q0 a angle)
    | q0 :: _ => do
      let c ← c.extend (← basisChange e.ps q0)
      let c ← ladderDown e.ps (pairwise qs) c
      let c ← c.add (.RZ (qs.getLastD 0) angle)
      let c ← ladderUp e.ps (pairwise qs.reverse) c
      c.extend (← basisChange e.ps q0)

/-- `compilation.py:174-176`: the loop over the nodes. -/
noncomputable def addPexps (d : PauliExponentialDAG) : List ℕ → Circuit → Except PyErr Circuit
  | [], c => .ok c
  | node :: l, c => do
    match d.pexps.get? node with
    | none => .error .keyError
    | some e => do
      let c ← addPexp e c
      addPexps d l c

/-- `compilation.py:174`: the nodes in the order of the loop; `ord i` is the order in which the layer `i` is
enumerated. -/
def nodeOrder (d : PauliExponentialDAG) (ord : SetOrd) : List ℕ :=
  (d.layers.tail.zipIdx.reverse.map fun (L, i) => ord i 0 L).flatten

/-- `compilation.py:68-176` `pexp_ladder_pass`. -/
noncomputable def ladderPass (d : PauliExponentialDAG) (ord : SetOrd) (c : Circuit) : Except PyErr Circuit :=
  addPexps d (nodeOrder d ord) c

end Pexp

namespace Berg

/-- The tableau and the instructions (`tab`, `instructions`), updated in place by the helpers. -/
structure St where
  tab : GF2
  instrs : List Instr

/-- `compilation.py:295-299` `add_h`. The sign column (`-1` in the code) is `2 * n`: the Pauli strings have dimension `n`. -/
def addH (n : ℕ) (s : St) (q : ℕ) : St where
  tab := fun r c =>
    if c = 2 * n then s.tab r (2 * n) + s.tab r q * s.tab r (q + n)
    else if c = q then s.tab r (q + n) else if c = q + n then s.tab r q else s.tab r c
  instrs := s.instrs ++ [.H q]

/-- `compilation.py:301-305` `add_s`. -/
def addS (n : ℕ) (s : St) (q : ℕ) : St where
  tab := fun r c =>
    if c = 2 * n then s.tab r (2 * n) + s.tab r q * s.tab r (q + n)
    else if c = q + n then s.tab r (q + n) + s.tab r q else s.tab r c
  instrs := s.instrs ++ [.S q, .Z q]

/-- `compilation.py:307-311` `add_cnot`. -/
def addCnot (n : ℕ) (s : St) (qc qt : ℕ) : St where
  tab := fun r c =>
    if c = 2 * n then s.tab r (2 * n) + s.tab r qc * s.tab r (qt + n) * (s.tab r qt + s.tab r (qc + n) + 1)
    else if c = qt then s.tab r qt + s.tab r qc
    else if c = qc + n then s.tab r (qc + n) + s.tab r (qt + n) else s.tab r c
  instrs := s.instrs ++ [.CNOT qc qt]

/-- `compilation.py:313-317` `add_swap`. -/
def addSwap (n : ℕ) (s : St) (q0 q1 : ℕ) : St where
  tab := fun r c =>
    if c = q0 then s.tab r q1 else if c = q1 then s.tab r q0
    else if c = q0 + n then s.tab r (q1 + n) else if c = q1 + n then s.tab r (q0 + n) else s.tab r c
  instrs := s.instrs ++ [.SWAP q0 q1]

/-- `compilation.py:281-283`: the loop of `do_step_1` over the columns. -/
def step1Loop (n row : ℕ) : List ℕ → St → St
  | [], s => s
  | j :: l, s => step1Loop n row l (if s.tab row j = 1 then addS n s j else addH n s j)

/-- `compilation.py:279-283` `do_step_1`. -/
def step1 (n row : ℕ) (s : St) : St :=
  step1Loop n row ((List.range n).filter fun j => s.tab row (n + j) = 1) s

/-- `compilation.py:288-290`: the CNOTs of one round, on consecutive pairs of columns. -/
def cnotRound (n : ℕ) : List ℕ → St → St
  | a :: b :: l, s => cnotRound n l (addCnot n s a b)
  | _, s => s

/-- `l[::2]`. -/
def everyOther : List ℕ → List ℕ
  | a :: _ :: l => a :: everyOther l
  | l => l

theorem everyOther_length_le : ∀ l, (everyOther l).length ≤ l.length
  | [] => Nat.le_refl _
  | [_] => Nat.le_refl _
  | _ :: _ :: l => by have := everyOther_length_le l; simp only [everyOther, List.length_cons]; omega

/-- `compilation.py:287-291`: the `while` loop of `do_step_2`; the remaining columns and the state. -/
def step2Loop (n : ℕ) (cols : List ℕ) (s : St) : List ℕ × St :=
  if 1 < cols.length then step2Loop n (everyOther cols) (cnotRound n cols s) else (cols, s)
termination_by cols.length
decreasing_by
  match cols with
  | [] => simp at *
  | [_] => simp at *
  | _ :: _ :: l => have := everyOther_length_le l; simp only [everyOther, List.length_cons]; omega

/-- `compilation.py:285-293` `do_step_2`: the pivot. -/
def step2 (n row : ℕ) (s : St) : Except PyErr (ℕ × St) :=
  match step2Loop n ((List.range n).filter fun j => s.tab row j = 1) s with
  | ([], _) => .error .indexError
  | (p :: _, s) => .ok (p, s)

/-- `compilation.py:254-277` `process_qubit`. -/
def processQubit (n : ℕ) (s : St) (q : ℕ) : Except PyErr St := do
  let s := step1 n q s
  let (pivot, s) ← step2 n q s
  let s := if pivot ≠ q then addSwap n s q pivot else s
  let colIdxZ := (List.range (2 * n)).filter fun j => s.tab (q + n) j = 1
  if ¬ (colIdxZ.length = 1 ∧ colIdxZ.getD 0 0 = q + n) then
    let s := addH n s q
    let s := step1 n (q + n) s
    let (pivot, s) ← step2 n (q + n) s
    if pivot ≠ q then throw .assertionError
    return addH n s q
  else return s

/-- `compilation.py:333-334`: the loop over the qubits. -/
def processAll (n : ℕ) : List ℕ → St → Except PyErr St
  | [], s => .ok s
  | q :: l, s => do
    let s ← processQubit n s q
    processAll n l s

/-- `compilation.py:321-328`: the sign correction of a qubit. -/
def signInstrs (n : ℕ) (tab : GF2) (q : ℕ) : List Instr :=
  if tab q (2 * n) = 0 ∧ tab (q + n) (2 * n) = 1 then [.X q]
  else if tab q (2 * n) = 1 ∧ tab (q + n) (2 * n) = 1 then [.Y q]
  else if tab q (2 * n) = 1 ∧ tab (q + n) (2 * n) = 0 then [.Z q]
  else []

/-- `compilation.py:319-328` `correct_signs`. -/
def correctSigns (n : ℕ) (s : St) : List Instr := s.instrs ++ (List.range n).flatMap (signInstrs n s.tab)

/-- `compilation.py:179-340` `cm_berg_pass`. -/
def bergPass (cm : CliffordMap) (c : Circuit) : Except PyErr Circuit := do
  let (_, tab) ← cm.toTableau
  let n := cm.outputs.length
  if cm.inputs.length ≠ n then throw .notImplementedError
  let s ← processAll n (List.range n) ⟨tab, []⟩
  c.extend (correctSigns n s).reverse

end Berg

/-- `extraction.py:25-47` `class ExtractionResult`. -/
structure ExtractionResult where
  pexpDag : PauliExponentialDAG
  cliffordMap : CliffordMap

/-- `compilation.py:22-65` `er_to_circuit` with the default passes. -/
noncomputable def erToCircuit (er : ExtractionResult) (ord : SetOrd) : Except PyErr Circuit := do
  if er.pexpDag.outputs ≠ er.cliffordMap.outputs then throw .valueError
  let c ← Berg.bergPass er.cliffordMap (Circuit.new er.pexpDag.outputs.length)
  Pexp.ladderPass er.pexpDag ord c

end Graphix
