import Verif.Model.PrettyPrint

/-!
# Specification: how a reader understands a printed number

A number is a sum of at most two terms; a term is a sign, then factors read from left to right (juxtaposition and `*` multiply, `/` divides by the
natural number that follows), then possibly an exponential `e^(…)`.
-/

namespace Graphix

/-- Reads factors from left to right and multiplies the accumulator. -/
noncomputable def readFactors (acc : ℂ) : List PTok → ℂ × List PTok
  | .nat n :: l => readFactors (acc * n) l
  | .dec x :: l => readFactors (acc * x) l
  | .sqrt n :: l => readFactors (acc * (Real.sqrt n : ℝ)) l
  | .imag :: l => readFactors (acc * Complex.I) l
  | .pi :: l => readFactors (acc * Real.pi) l
  | .times :: l => readFactors acc l
  | .div :: .nat n :: l => readFactors (acc / n) l
  | l => (acc, l)

/-- A sign, then factors. -/
noncomputable def readSigned : List PTok → ℂ × List PTok
  | .neg :: l => readFactors (-1) l
  | l => readFactors 1 l

/-- A term: a sign, factors, and possibly an exponential at the end. A term is not empty. -/
noncomputable def readTerm (l : List PTok) : Option (ℂ × List PTok) :=
  if l = [] then none
  else match readSigned l with
    | (a, .expo :: l2) =>
      match readSigned l2 with
      | (b, .rpar :: l3) => some (a * Complex.exp b, l3)
      | _ => none
    | (a, l1) => some (a, l1)

/-- The number that is printed. -/
noncomputable def readNumber (l : List PTok) : Option ℂ :=
  match readTerm l with
  | none => none
  | some (a, []) => some a
  | some (a, .add :: l2) | some (a, .pos :: l2) =>
    match readTerm l2 with
    | some (b, []) => some (a + b)
    | _ => none
  | some (a, .sub :: l2) | some (a, .neg :: l2) =>
    match readTerm l2 with
    | some (b, []) => some (a - b)
    | _ => none
  | some _ => none

/-- What is assumed of the Python library: `limit_denominator(m)` gives a fraction with a denominator at most `m`, does not change such a fraction, and
keeps the sign of nonnegative numbers. -/
structure PpEnv.Valid (env : PpEnv) : Prop where
  den_le : ∀ m x, 0 < m → (env.lim m x).den ≤ m
  exact : ∀ m (q : ℚ), q.den ≤ m → env.lim m q = q
  nonneg : ∀ m x, 0 ≤ x → 0 ≤ env.lim m x

/-- `f"{x:.{p}g}"` has a relative error at most `u`. -/
def PpEnv.Rounds (env : PpEnv) (p : ℕ) (u : ℝ) : Prop := ∀ x, |env.fmt p x - x| ≤ u * |x|

end Graphix
