import Verif.Spec.Circuit
import Verif.Props.Clifford

/-!
# Specification: a fragment of OpenQASM 3

Tokens, grammar and meaning of the fragment of OpenQASM 3 that `qasm3_exporter.py` writes.  Nothing here depends on the exporter.

* A program is a header, then statements.  Its qubits are either single qubits `q0`, `q1`, … with bits `c0`, `c1`, …, or the elements of
  one register `q` with a register of bits `b`: the flag `reg` says which.
* A run is given by the outcomes `o 0`, `o 1`, … of its measurements. The state is not normalised: its squared norm is the probability of
  the outcomes.  A run stops with an error (`none`) when a name is declared twice or used without being declared, when a bit is read before
  it is written, when a gate is unknown, has a wrong number of arguments, or is applied to twice the same qubit.
* A qubit is declared in the state `|0⟩`.  After a measurement the qubit is in the basis state of the outcome.
-/

namespace Graphix

open Function

/-- The tokens: comments and spaces are not tokens. `nat` and `real` are literals. -/
inductive QTok
  | openqasm | include_ | stdgates
  | qubit | bit | measure | if_
  | pi
  | name (s : String)
  | q (n : ℕ) | c (n : ℕ)
  | regQ | regB
  | nat (n : ℕ) | real (x : ℝ)
  | comma | semi | lpar | rpar | lbrack | rbrack | lbrace | rbrace | eq | xor | minus | times | div

/-- A gate call: the name, the argument (in radians), the qubits. -/
structure QCall where
  name : String
  arg : Option ℝ
  ops : List ℕ

/-- The statements. -/
inductive QStmt
  /-- `qubit qn;` -/
  | qubit (n : ℕ)
  /-- `bit cn;` -/
  | bit (n : ℕ)
  /-- `qubit[w] q;` -/
  | qubits (w : ℕ)
  /-- `bit[w] b;` -/
  | bits (w : ℕ)
  /-- `g(θ) q0, q1;` -/
  | call (g : QCall)
  /-- `c0 = measure q0;` -/
  | measure (c q : ℕ)
  /-- `if (c0 ^ c1) { g q0; }` -/
  | cond (bits : List ℕ) (g : QCall)

/-! ### Grammar -/

/-- Literals and `pi`. -/
noncomputable def qAtom : QTok → Option ℝ
  | .nat n => some n
  | .real x => some x
  | .pi => some Real.pi
  | _ => none

/-- Products and quotients, from left to right; the value of what is before is `acc`. -/
noncomputable def qProd (acc : ℝ) : List QTok → Option (ℝ × List QTok)
  | .times :: t :: l => (qAtom t).bind fun x => qProd (acc * x) l
  | .div :: t :: l => (qAtom t).bind fun x => qProd (acc / x) l
  | l => some (acc, l)

/-- An expression with a possible minus sign in front: its value, and what is after it. -/
noncomputable def qExpr : List QTok → Option (ℝ × List QTok)
  | .minus :: t :: l => (qAtom t).bind fun x => (qProd x l).map fun p => (-p.1, p.2)
  | t :: l => (qAtom t).bind fun x => qProd x l
  | [] => none

/-- A qubit. -/
def qQubit (reg : Bool) : List QTok → Option (ℕ × List QTok)
  | .q n :: l => if reg then none else some (n, l)
  | .regQ :: .lbrack :: .nat n :: .rbrack :: l => if reg then some (n, l) else none
  | _ => none

/-- A bit. -/
def qBit (reg : Bool) : List QTok → Option (ℕ × List QTok)
  | .c n :: l => if reg then none else some (n, l)
  | .regB :: .lbrack :: .nat n :: .rbrack :: l => if reg then some (n, l) else none
  | _ => none

/-- Qubits separated by commas, then a semicolon: `QQubits reg toks ns rest`. -/
inductive QQubits (reg : Bool) : List QTok → List ℕ → List QTok → Prop
  | one {toks n rest} : qQubit reg toks = some (n, .semi :: rest) → QQubits reg toks [n] rest
  | more {toks n mid ns rest} : qQubit reg toks = some (n, .comma :: mid) → QQubits reg mid ns rest → QQubits reg toks (n :: ns) rest

/-- Bits separated by `^`, then a parenthesis. -/
inductive QXor (reg : Bool) : List QTok → List ℕ → List QTok → Prop
  | one {toks n rest} : qBit reg toks = some (n, .rpar :: rest) → QXor reg toks [n] rest
  | more {toks n mid ns rest} : qBit reg toks = some (n, .xor :: mid) → QXor reg mid ns rest → QXor reg toks (n :: ns) rest

/-- A gate call, with its semicolon. -/
inductive QCalls (reg : Bool) : List QTok → QCall → List QTok → Prop
  | plain {g toks ns rest} : QQubits reg toks ns rest → QCalls reg (.name g :: toks) ⟨g, none, ns⟩ rest
  | arg {g toks θ mid ns rest} : qExpr toks = some (θ, .rpar :: mid) → QQubits reg mid ns rest →
      QCalls reg (.name g :: .lpar :: toks) ⟨g, some θ, ns⟩ rest

/-- A statement: `QStatement reg toks s rest` when `toks` is the text of `s` followed by `rest`. -/
inductive QStatement : Bool → List QTok → QStmt → List QTok → Prop
  | qubit {n rest} : QStatement false (.qubit :: .q n :: .semi :: rest) (.qubit n) rest
  | bit {n rest} : QStatement false (.bit :: .c n :: .semi :: rest) (.bit n) rest
  | qubits {w rest} : QStatement true (.qubit :: .lbrack :: .nat w :: .rbrack :: .regQ :: .semi :: rest) (.qubits w) rest
  | bits {w rest} : QStatement true (.bit :: .lbrack :: .nat w :: .rbrack :: .regB :: .semi :: rest) (.bits w) rest
  | call {reg toks g rest} : QCalls reg toks g rest → QStatement reg toks (.call g) rest
  | measure {reg toks c mid q rest} : qBit reg toks = some (c, .eq :: .measure :: mid) → qQubit reg mid = some (q, .semi :: rest) →
      QStatement reg toks (.measure c q) rest
  | cond {reg toks ns mid g rest} : QXor reg toks ns (.lbrace :: mid) → QCalls reg mid g (.rbrace :: rest) →
      QStatement reg (.if_ :: .lpar :: toks) (.cond ns g) rest

/-- A list of statements. -/
inductive QStatements (reg : Bool) : List QTok → List QStmt → Prop
  | nil : QStatements reg [] []
  | cons {toks s rest ss} : QStatement reg toks s rest → QStatements reg rest ss → QStatements reg toks (s :: ss)

/-- `OPENQASM 3; include "stdgates.inc";` -/
def qHeader : List QTok := [.openqasm, .nat 3, .semi, .include_, .stdgates, .semi]

/-- The text is the text of the program. -/
def QasmText (reg : Bool) (toks : List QTok) (prog : List QStmt) : Prop := ∃ body, toks = qHeader ++ body ∧ QStatements reg body prog

/-! ### Meaning -/

/-- Basis vector. -/
def basisKet (x : Bool) : Bool → ℂ := fun y => if y = x then 1 else 0

/-- The rotation `exp(-i θ/2 P)`, `θ` in radians. -/
noncomputable def rotRad (P : Mat2) (θ : ℝ) : Mat2 := (Real.cos (θ / 2) : ℂ) • (1 : Mat2) - (Complex.I * Real.sin (θ / 2)) • P

/-- The gate `U` on `t` controlled by `c`. -/
noncomputable def ctrlOp (U : Mat2) (c t : ℕ) (ψ : QState) : QState := fun b => if b c then op1 U t ψ b else ψ b

/-- The gates of `stdgates.inc` that are used. -/
noncomputable def stdGate : QCall → Option (QState → QState)
  | ⟨"rx", some θ, [t]⟩ => some (op1 (rotRad Ops.X θ) t)
  | ⟨"ry", some θ, [t]⟩ => some (op1 (rotRad Ops.Y θ) t)
  | ⟨"rz", some θ, [t]⟩ => some (op1 (rotRad Ops.Z θ) t)
  | ⟨"crz", some θ, [c, t]⟩ => some (ctrlOp (rotRad Ops.Z θ) c t)
  | ⟨"cx", none, [c, t]⟩ => some (cnotOp c t)
  | ⟨"cz", none, [u, v]⟩ => some (cz u v)
  | ⟨"swap", none, [u, v]⟩ => some (swapOp u v)
  | ⟨"ccx", none, [c, d, t]⟩ => some (ccxOp c d t)
  | ⟨g, none, [t]⟩ => (qasm3Gate g).map fun U => op1 U t
  | _ => none

/-- The state of a run: the qubits and the bits that are declared, the values of the bits, the number of measurements done, the quantum
state. -/
structure QMach where
  qubits : Finset ℕ
  bits : Finset ℕ
  val : ℕ → Option Bool
  count : ℕ
  state : QState

/-- Before the first statement. -/
def QMach.init : QMach := ⟨∅, ∅, fun _ => none, 0, fun _ => 1⟩

/-- A gate call. -/
noncomputable def QMach.call (m : QMach) (g : QCall) : Option QMach :=
  if g.ops.Nodup ∧ ∀ n ∈ g.ops, n ∈ m.qubits then (stdGate g).map fun F => { m with state := F m.state } else none

/-- The value of `c0 ^ c1 ^ …`. -/
def QMach.xor (m : QMach) : List ℕ → Option Bool
  | [] => some false
  | n :: l => if n ∈ m.bits then (m.val n).bind fun x => (m.xor l).map fun y => Bool.xor x y else none

/-- One statement. -/
noncomputable def QMach.step (o : ℕ → Bool) (m : QMach) : QStmt → Option QMach
  | .qubit n => if n ∈ m.qubits then none else some { m with qubits := insert n m.qubits, state := prep n (basisKet false) m.state }
  | .bit n => if n ∈ m.bits then none else some { m with bits := insert n m.bits }
  | .qubits w =>
    if m.qubits = ∅ then
      some { m with qubits := Finset.range w, state := (List.range w).foldl (fun ψ n => prep n (basisKet false) ψ) m.state }
    else none
  | .bits w => if m.bits = ∅ then some { m with bits := Finset.range w } else none
  | .call g => m.call g
  | .measure c q =>
    if c ∈ m.bits ∧ q ∈ m.qubits then
      some { m with
        val := update m.val c (some (o m.count))
        count := m.count + 1
        state := prep q (basisKet (o m.count)) (projOut q (basisKet (o m.count)) m.state) }
    else none
  | .cond l g => (m.xor l).bind fun x => if x then m.call g else some m

/-- A run of a program for the outcomes `o`. -/
noncomputable def QMach.run (o : ℕ → Bool) (m : QMach) : List QStmt → Option QMach
  | [] => some m
  | s :: l => (m.step o s).bind fun m => m.run o l

end Graphix
