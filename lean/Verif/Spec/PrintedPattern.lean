import Verif.Model.PrintPattern
import Verif.Spec.PrintedNumber

/-!
# Specification: how a reader understands a printed pattern, flow or set of corrections
-/

namespace Graphix

open scoped Classical

/-- A measurement that is read: a Pauli measurement, or a plane and an angle in radians. -/
inductive ReadMeas
  | pauli (s : Sign) (a : Axis) | bloch (p : Plane) (v : ℂ)

/-- A command that is read; domains are the lists of nodes of the text. -/
inductive ReadCmd
  | N (n : ℕ) | M (n : ℕ) (m : ReadMeas) (s t : List ℕ) | E (u v : ℕ) | C (n : ℕ) (label : String) | X (n : ℕ) (d : List ℕ)
  | Z (n : ℕ) (d : List ℕ) | S (n : ℕ) (d : List ℕ) | T

/-- A set, after its opening brace. -/
def readNodes : List CTok → Option (List ℕ × List CTok)
  | .rbrace :: l => some ([], l)
  | .node n :: .rbrace :: l => some ([n], l)
  | .node n :: .comma :: l => (readNodes l).map fun r => (n :: r.1, r.2)
  | _ => none

/-- The arguments of a measurement after its node. Without arguments, it is a measurement of `+X`; without plane, it is in the plane XY. -/
noncomputable def readArgs : List CTok → Option (ReadMeas × List CTok)
  | .rpar :: l => some (.pauli .plus .X, l)
  | .comma :: .plane p :: .comma :: .ang a :: .rpar :: l => (readNumber a).map fun v => (.bloch p v, l)
  | .comma :: .ang a :: .rpar :: l => (readNumber a).map fun v => (.bloch .XY v, l)
  | .comma :: .pauli s a :: .rpar :: l => some (.pauli s a, l)
  | _ => none

/-- The optional domain of a correction after its node. -/
def readDomain : List CTok → Option (List ℕ × List CTok)
  | .rpar :: l => some ([], l)
  | .comma :: .lbrace :: l =>
    match readNodes l with
    | some (d, .rpar :: l') => some (d, l')
    | _ => none
  | _ => none

/-- A measurement in brackets, after `[`: the set after the bracket is the s-domain. -/
noncomputable def readBracket (t : List ℕ) : List CTok → Option (ReadCmd × List CTok)
  | .kw .M :: .lpar :: .node n :: l =>
    match readArgs l with
    | some (m, .rbrack :: .lbrace :: l') => (readNodes l').map fun q => (.M n m q.1 t, q.2)
    | some (m, .rbrack :: l') => some (.M n m [] t, l')
    | _ => none
  | _ => none

/-- One command. A set before a bracket is the t-domain. -/
noncomputable def readCommand : List CTok → Option (ReadCmd × List CTok)
  | .kw .E :: .lpar :: .node u :: .comma :: .node v :: .rpar :: l => some (.E u v, l)
  | .kw .T :: l => some (.T, l)
  | .kw .N :: .lpar :: .node n :: .rpar :: l => some (.N n, l)
  | .kw .C :: .lpar :: .node n :: .comma :: .label s :: .rpar :: l => some (.C n s, l)
  | .kw .X :: .lpar :: .node n :: l => (readDomain l).map fun r => (.X n r.1, r.2)
  | .kw .Z :: .lpar :: .node n :: l => (readDomain l).map fun r => (.Z n r.1, r.2)
  | .kw .S :: .lpar :: .node n :: l => (readDomain l).map fun r => (.S n r.1, r.2)
  | .kw .M :: .lpar :: .node n :: l => (readArgs l).map fun r => (.M n r.1 [] [], r.2)
  | .lbrack :: l => readBracket [] l
  | .lbrace :: l =>
    match readNodes l with
    | some (t, .lbrack :: l') => readBracket t l'
    | _ => none
  | _ => none

/-- A sequence of commands, and the number of commands that the text says it omits. The first argument bounds the number of commands. -/
noncomputable def readSeq : ℕ → List CTok → Option (List ReadCmd × ℤ)
  | _, [] => some ([], 0)
  | _, [.more k] => some ([], k)
  | 0, _ => none
  | n + 1, l =>
    match readCommand l with
    | some (c, []) => some ([c], 0)
    | some (c, [.more k]) => some ([c], k)
    | some (c, .space :: l') => (readSeq n l').map fun r => (c :: r.1, r.2)
    | _ => none

/-- The commands of a text, and the number of commands that it says it omits. -/
noncomputable def readPattern (l : List CTok) : Option (List ReadCmd × ℤ) := readSeq l.length l

/-- The list that is read is a domain. -/
def ShowsSet (d : Finset ℕ) (l : List ℕ) : Prop := l.Nodup ∧ ∀ n, n ∈ l ↔ n ∈ d

/-- What is read of a measurement: the plane is exact, and the angle has a relative error of at most `1e-9`. -/
def ShowsMeas : Measurement → ReadMeas → Prop
  | .pauli m, .pauli s a => s = m.sign ∧ a = m.axis
  | .bloch m, .bloch p v => p = m.plane ∧ ∃ x : ℝ, v = ((x * Real.pi : ℝ) : ℂ) ∧ |m.angle - x| ≤ 1 / 10 ^ 9 * max |m.angle| |x|
  | _, _ => False

/-- What is read of a command: everything but the state of a preparation and the Clifford gate behind a label. -/
def ShowsCmd : Command → ReadCmd → Prop
  | .N n _, .N n' => n' = n
  | .M n m s t, .M n' m' s' t' => n' = n ∧ ShowsMeas m m' ∧ ShowsSet s s' ∧ ShowsSet t t'
  | .E u v, .E u' v' => u' = u ∧ v' = v
  | .C n c, .C n' l => n' = n ∧ l = cliffordLabel c
  | .X n d, .X n' d' => n' = n ∧ ShowsSet d d'
  | .Z n d, .Z n' d' => n' = n ∧ ShowsSet d d'
  | .S n d, .S n' d' => n' = n ∧ ShowsSet d d'
  | .T, .T => True
  | _, _ => False

/-! ### Flows and corrections -/

/-- The items of a function, until a `;`. -/
def readItems (name : String) : ℕ → List CTok → Option (List (ℕ × List ℕ) × List CTok)
  | _, .semi :: l => some ([], l)
  | 0, _ => none
  | k + 1, .name s :: .lpar :: .node n :: .rpar :: .eq :: .lbrace :: l =>
    if s = name then
      match readNodes l with
      | some (d, .semi :: l') => some ([(n, d)], l')
      | some (d, .comma :: l') => (readItems name k l').map fun r => ((n, d) :: r.1, r.2)
      | _ => none
    else none
  | _, _ => none

/-- The layers of a partial order, the smallest first. -/
def readLayers : ℕ → List CTok → Option (List (List ℕ))
  | _, [] => some []
  | 0, _ => none
  | k + 1, .lbrace :: l =>
    match readNodes l with
    | some (d, []) => some [d]
    | some (d, .lt :: l') => (readLayers k l').map fun r => d :: r
    | _ => none
  | _, _ => none

/-- A flow: its correction function, then its layers. -/
def readFlow (name : String) (l : List CTok) : Option (List (ℕ × List ℕ) × List (List ℕ)) :=
  (readItems name l.length l).bind fun r => (readLayers r.2.length r.2).map fun q => (r.1, q)

/-- Corrections: the X corrections, the Z corrections, then the layers. -/
def readXZ (l : List CTok) : Option (List (ℕ × List ℕ) × List (ℕ × List ℕ) × List (List ℕ)) :=
  (readItems "x" l.length l).bind fun r => (readItems "z" r.2.length r.2).bind fun r' => (readLayers r'.2.length r'.2).map fun q => (r.1, r'.1, q)

end Graphix
