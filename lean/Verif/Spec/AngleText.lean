import Verif.Model.AngleText

/-!
# Specification: how a reader reads the text of an angle

`π` has a name in each format. A term is `π`, or digits, the multiplication sign when it is asked for, and `π`. A text with the name of
`π` is a sign and a term, or a fraction whose numerator is a term; another text is a decimal literal.
-/

namespace Graphix

/-- The name of π in a format. -/
def OutputFormat.piName : OutputFormat → String
  | .ascii => "pi"
  | .latex => "\\pi"
  | .unicode => "π"

/-- The multiplication sign of a format. -/
def OutputFormat.times : OutputFormat → String
  | .ascii => "*"
  | .latex => " \\times "
  | .unicode => "×"

/-- A term: `π`, or a natural number times `π`. -/
noncomputable def readPiTerm (out : OutputFormat) (mul : Bool) (l : List Char) : Option ℝ :=
  let digits := l.takeWhile Char.isDigit
  let rest := l.dropWhile Char.isDigit
  if digits = [] then if rest = out.piName.toList then some Real.pi else none
  else if rest = (if mul then out.times.toList else []) ++ out.piName.toList then some (Nat.ofDigitChars 10 digits 0 * Real.pi)
  else none

/-- A term, or a fraction: `a/b` in text, `\frac{a}{b}` in LaTeX. -/
noncomputable def readPiFrac (out : OutputFormat) (mul : Bool) (l : List Char) : Option ℝ :=
  if out = .latex then
    if "\\frac{".toList.isPrefixOf l then
      let body := l.drop 6
      let den := (body.dropWhile fun c => decide (c ≠ '}')).drop 2
      if (body.dropWhile fun c => decide (c ≠ '}')).take 2 = "}{".toList ∧ den.dropWhile Char.isDigit = "}".toList then
        (readPiTerm out mul (body.takeWhile fun c => decide (c ≠ '}'))).map (· / Nat.ofDigitChars 10 (den.takeWhile Char.isDigit) 0)
      else none
    else readPiTerm out mul l
  else
    let den := l.dropWhile fun c => decide (c ≠ '/')
    if den = [] then readPiTerm out mul l
    else if den.tail.all Char.isDigit = true then
      (readPiTerm out mul (l.takeWhile fun c => decide (c ≠ '/'))).map (· / Nat.ofDigitChars 10 den.tail 0)
    else none

/-- The angle, in radians, that is written in a text. -/
noncomputable def readAngleText (rd : List Char → Option ℝ) (out : OutputFormat) (mul : Bool) (l : List Char) : Option ℝ :=
  if l.any (fun c => decide (c = 'p' ∨ c = 'π')) then
    match l with
    | '-' :: l => (readPiFrac out mul l).map (- ·)
    | l => readPiFrac out mul l
  else rd l

end Graphix
