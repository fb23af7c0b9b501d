import Verif.Spec.PrintedNumber

/-!
# Specification: how a reader understands a printed state

A state is a sum of kets with coefficients, possibly with a common factor before a parenthesis. Juxtaposition binds more tightly than `+` and `-`: a
coefficient that is a sum has to be in parentheses.
-/

namespace Graphix

/-- The coefficient of a ket: nothing, a sign, a number in parentheses, or one term. -/
noncomputable def readCoef : List PTok → Option ℂ
  | [] => some 1
  | [.neg] => some (-1)
  | .lpar :: l =>
    match l.getLast? with
    | some .rpar => readNumber l.dropLast
    | _ => none
  | l =>
    match readTerm l with
    | some (a, []) => some a
    | _ => none

/-- Reads kets: `sgn` is the sign of the connector before the term and `c` the tokens of its coefficient that are already read. -/
noncomputable def readKets (sgn : ℂ) (c : List PTok) : List PTok → Option (List (List Char × ℂ))
  | [] => none
  | .ket k :: [] => (readCoef c).map fun a => [(k, sgn * a)]
  | .ket k :: .add :: l => (readCoef c).bind fun a => (readKets 1 [] l).map fun r => (k, sgn * a) :: r
  | .ket k :: .sub :: l => (readCoef c).bind fun a => (readKets (-1) [] l).map fun r => (k, sgn * a) :: r
  | .ket _ :: _ => none
  | t :: l => readKets sgn (c ++ [t]) l

/-- The number before the first parenthesis, and what is after it. -/
def splitFactor (c : List PTok) : List PTok → Option (List PTok × List PTok)
  | [] => none
  | .ket _ :: _ => none
  | .lpar :: l => if c.isEmpty then none else some (c, l)
  | t :: l => splitFactor (c ++ [t]) l

/-- The kets of a state and their coefficients. -/
noncomputable def readState (l : List PTok) : Option (List (List Char × ℂ)) :=
  match l with
  | [.nat 0] => some []
  | l =>
    match splitFactor [] l with
    | none => readKets 1 [] l
    | some (r, body) =>
      match body.getLast? with
      | some .rpar => (readNumber r).bind fun a => (readKets 1 [] body.dropLast).map fun m => m.map fun kv => (kv.1, a * kv.2)
      | _ => none

/-- The coefficient of a ket that is read. -/
def coefOf (m : List (List Char × ℂ)) (k : List Char) : ℂ := ((m.find? fun kv => decide (kv.1 = k)).map Prod.snd).getD 0

end Graphix
