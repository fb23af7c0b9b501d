import Mathlib.Analysis.SpecialFunctions.Complex.Arg
import Mathlib.Data.Nat.Squarefree

/-!
# Model of the part of `graphix/pretty_print.py` that prints numbers

Floats are real numbers. A text is the list of its tokens (`PTok`); the ASCII format is modelled (the two others use other glyphs).
`Fraction(x).limit_denominator(m)` and `f"{x:.{p}g}"` are parameters (`PpEnv`): the Python library is not modelled.
-/

namespace Graphix

open scoped Classical

/-- The tokens of a printed number: `-`, ` + `, ` - `, `+`, a natural number, a decimal literal, `sqrt(n)`, `i`, `pi`, `/`, `*`, `e^(`, `)`, and `(` and
a ket for states. -/
inductive PTok
  | neg | add | sub | pos | nat (n : ℕ) | dec (x : ℝ) | sqrt (n : ℕ) | imag | pi | div | times | expo | rpar | lpar | ket (s : List Char)

/-- The functions of the Python library: `lim m x` is `Fraction(x).limit_denominator(m)`, `fmt p x` the number written by `f"{x:.{p}g}"`. -/
structure PpEnv where
  lim : ℕ → ℝ → ℚ
  fmt : ℕ → ℝ → ℝ

/-- `math.isclose(a, b, rel_tol=rtol, abs_tol=atol)`. -/
def Isclose (rtol atol a b : ℝ) : Prop := |a - b| ≤ max (rtol * max |a| |b|) atol

/-- `pretty_print.py:532-534`: the inner loop `while inner % (d * d) == 0` (for `2 ≤ d` and `0 < inner`). -/
def divideOut (d outer inner : ℕ) : ℕ × ℕ :=
  if _h : 2 ≤ d ∧ 0 < inner ∧ inner % (d * d) = 0 then divideOut d (outer * d) (inner / (d * d)) else (outer, inner)
termination_by inner
decreasing_by exact Nat.div_lt_self _h.2.1 (by nlinarith [_h.1])

theorem divideOut_le (d outer inner : ℕ) : (divideOut d outer inner).2 ≤ inner := by
  induction outer, inner using divideOut.induct (d := d) with
  | case1 outer inner h ih =>
    rw [divideOut, dif_pos h]
    exact ih.trans (Nat.div_le_self _ _)
  | case2 outer inner h => rw [divideOut, dif_neg h]

/-- `pretty_print.py:531-536`: the outer loop `while d * d <= inner`. -/
def squarefreeLoop (d outer inner : ℕ) : ℕ × ℕ :=
  if _h : d * d ≤ inner then
    squarefreeLoop (d + 1) (divideOut d outer inner).1 (divideOut d outer inner).2
  else (outer, inner)
termination_by inner + 2 - d
decreasing_by
  have h1 := divideOut_le d outer inner
  have h2 : d ≤ inner := le_trans (Nat.le_mul_self d) _h
  omega

/-- `pretty_print.py:512-536` `_squarefree_decomposition`. -/
def squarefreeDecomposition (n : ℕ) : ℕ × ℕ := if n = 0 then (0, 1) else squarefreeLoop 2 1 n

/-- `pretty_print.py:539-589` `_recognize_sqrt`. -/
noncomputable def recognizeSqrt (env : PpEnv) (x : ℝ) (md : ℕ) (atol rtol : ℝ) : Option (ℤ × ℕ × ℕ) :=
  let direct := env.lim md x
  if Isclose rtol atol x direct then
    let magnitude := direct.num.natAbs
    let sign : ℤ := if direct.num < 0 then -1 else 1
    some (sign * magnitude, 1, direct.den)
  else
    let square := env.lim md (x * x)
    if ¬ Isclose rtol atol (x * x) square then none
    else
      let n := squarefreeDecomposition square.num.toNat
      let d := squarefreeDecomposition square.den
      let c := squarefreeDecomposition (n.2 * d.2)
      let num := n.1 * c.1
      let den := d.1 * d.2
      let divisor := Nat.gcd num den
      let sign : ℤ := if x < 0 then -1 else 1
      some (sign * (num / divisor : ℕ), c.2, den / divisor)

/-- `pretty_print.py:596-604` `_sqrt_str`. -/
def sqrtStr (inner : ℕ) : List PTok := if inner = 1 then [] else [.sqrt inner]

/-- The sign `"-" if n < 0 else ""`. -/
def signStr (n : ℤ) : List PTok := if n < 0 then [.neg] else []

/-- `pretty_print.py:613-628` `_render_real` (with `_fraction_str`, 607-610). -/
def renderReal (s : ℤ) (inner den : ℕ) : List PTok :=
  if s = 0 then [.nat 0]
  else
    let magnitude := s.natAbs
    let numerator := if inner = 1 then [PTok.nat magnitude] else if magnitude = 1 then sqrtStr inner else .nat magnitude :: sqrtStr inner
    if den = 1 then signStr s ++ numerator else signStr s ++ numerator ++ [.div, .nat den]

/-- `pretty_print.py:631-635` `_real_to_str`. -/
noncomputable def realToStr (env : PpEnv) (x : ℝ) (md : ℕ) (atol rtol : ℝ) : Option (List PTok) :=
  (recognizeSqrt env x md atol rtol).map fun r => renderReal r.1 r.2.1 r.2.2

/-- `pretty_print.py:638-652` `_render_imaginary`. -/
def renderImaginary (s : ℤ) (inner den : ℕ) : List PTok :=
  let magnitude := s.natAbs
  let coefficient := if magnitude = 1 then [] else [PTok.nat magnitude]
  let numerator := coefficient ++ [.imag] ++ sqrtStr inner
  if den = 1 then signStr s ++ numerator else signStr s ++ numerator ++ [.div, .nat den]

/-- `pretty_print.py:655-660` `_imaginary_to_str`. -/
noncomputable def imaginaryToStr (env : PpEnv) (x : ℝ) (md : ℕ) (atol rtol : ℝ) : Option (List PTok) :=
  (recognizeSqrt env x md atol rtol).map fun r => renderImaginary r.1 r.2.1 r.2.2

/-- `pretty_print.py:663-669` `_recognize_angle_over_pi`. -/
noncomputable def recognizeAngle (env : PpEnv) (θ : ℝ) (md : ℕ) (atol rtol : ℝ) : Option ℚ :=
  let frac := env.lim md (θ / Real.pi)
  if Isclose rtol atol (θ / Real.pi) frac then some frac else none

/-- A decimal literal with its sign. -/
noncomputable def decToks (v : ℝ) : List PTok := if v < 0 then [.neg, .dec (-v)] else [.dec v]

/-- `pretty_print.py:77-149` `angle_to_str(angle)` (ASCII, `max_denominator=1000`, no multiplication sign); the relative tolerance of `math.isclose` is
`1e-9`. -/
noncomputable def angleToStr (env : PpEnv) (angle : ℝ) : List PTok :=
  let frac := env.lim 1000 angle
  if ¬ Isclose (1 / 10 ^ 9) 0 angle frac then decToks (angle * Real.pi)
  else
    let num := frac.num.natAbs
    if frac.den = 1 then
      match num with
      | 0 => [.nat 0]
      | 1 => signStr frac.num ++ [.pi]
      | k => signStr frac.num ++ [.nat k, .pi]
    else
      let numStr := if num = 1 then [PTok.pi] else [.nat num, .pi]
      signStr frac.num ++ numStr ++ [.div, .nat frac.den]

/-- `pretty_print.py:672-691` `_exponential_to_str`. -/
noncomputable def exponentialToStr (env : PpEnv) (z : ℂ) (md : ℕ) (atol rtol : ℝ) : Option (List PTok) :=
  match recognizeAngle env z.arg md atol rtol with
  | none => none
  | some frac =>
    if frac = 0 then none
    else
      match realToStr env ‖z‖ md atol rtol with
      | none => none
      | some radius =>
        let sign := if frac < 0 then [PTok.neg] else []
        let body := .expo :: sign ++ [.imag, .times] ++ angleToStr env ((|frac| : ℚ) : ℝ) ++ [.rpar]
        if radius = [.nat 1] then some body else some (radius ++ [.times] ++ body)

/-- `pretty_print.py:694-709` `_cartesian_to_str`. -/
noncomputable def cartesianToStr (env : PpEnv) (re im : ℝ) (md : ℕ) (atol rtol : ℝ) : Option (List PTok) :=
  match realToStr env re md atol rtol, recognizeSqrt env im md atol rtol with
  | some reStr, some (s, inner, den) =>
    let connector := if s < 0 then PTok.sub else .add
    let imag := if s.natAbs = 1 ∧ inner = 1 ∧ den = 1 then [PTok.imag] else renderReal |s| inner den ++ [.imag]
    some (reStr ++ [connector] ++ imag)
  | _, _ => none

/-- `pretty_print.py:712-719` `_decimal_to_str`. -/
noncomputable def decimalToStr (env : PpEnv) (z : ℂ) (precision : ℕ) (atol : ℝ) : List PTok :=
  if |z.im| ≤ atol then decToks (env.fmt precision z.re)
  else if |z.re| ≤ atol then decToks (env.fmt precision z.im) ++ [.imag]
  else
    decToks (env.fmt precision z.re) ++
      (if env.fmt precision z.im < 0 then [.neg, .dec (-env.fmt precision z.im)] else [.pos, .dec (env.fmt precision z.im)]) ++ [.imag]

/-- `pretty_print.py:722-799` `complex_to_str`, for a number. -/
noncomputable def complexToStr (env : PpEnv) (z : ℂ) (md : ℕ) (atol rtol : ℝ) (precision : ℕ) : List PTok :=
  if |z.re| ≤ atol ∧ |z.im| ≤ atol then [.nat 0]
  else if |z.im| ≤ atol then (realToStr env z.re md atol rtol).getD (decimalToStr env z precision atol)
  else if |z.re| ≤ atol then (imaginaryToStr env z.im md atol rtol).getD (decimalToStr env z precision atol)
  else
    let exponential := exponentialToStr env z md atol rtol
    match exponential, decide (Isclose rtol atol ‖z‖ 1) with
    | some e, true => e
    | _, _ =>
      match cartesianToStr env z.re z.im md atol rtol with
      | some c => c
      | none =>
        match exponential with
        | some e => e
        | none => decimalToStr env z precision atol

end Graphix
