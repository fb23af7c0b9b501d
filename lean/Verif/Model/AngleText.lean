import Verif.Model.PrettyPrint

/-!
# Model of `angle_to_str` in every output format, as characters
-/

namespace Graphix

/-- `pretty_print.py:34-42` `OutputFormat`. -/
inductive OutputFormat
  | ascii | latex | unicode
  deriving DecidableEq

/-- `pretty_print.py:121, 128`: the text of π. -/
def piText : OutputFormat → List Char
  | .ascii => ['p', 'i']
  | .latex => ['\\', 'p', 'i']
  | .unicode => ['π']

/-- `pretty_print.py:126, 133, 135-136`: the text of the multiplication sign. -/
def mulText (out : OutputFormat) (multiplicationSign : Bool) : List Char :=
  if multiplicationSign then
    match out with
    | .ascii => ['*']
    | .latex => [' ', '\\', 't', 'i', 'm', 'e', 's', ' ']
    | .unicode => ['×']
  else []

/-- `pretty_print.py:123-124, 130-131` `mkfrac`. -/
def mkfrac (out : OutputFormat) (num den : List Char) : List Char :=
  match out with
  | .latex => ['\\', 'f', 'r', 'a', 'c', '{'] ++ num ++ ['}', '{'] ++ den ++ ['}']
  | _ => num ++ ['/'] ++ den

open scoped Classical in
/-- `pretty_print.py:77-149` `angle_to_str` with the default `max_denominator`; `dec` is the text of a float. -/
noncomputable def angleText (env : PpEnv) (dec : ℝ → List Char) (out : OutputFormat) (multiplicationSign : Bool) (angle : ℝ) : List Char :=
  let frac := env.lim 1000 angle
  if ¬ Isclose (1 / 10 ^ 9) 0 angle frac then dec (angle * Real.pi)
  else
    let sign := if frac.num < 0 then ['-'] else []
    let num := frac.num.natAbs
    let mul := mulText out multiplicationSign
    if frac.den = 1 then
      match num with
      | 0 => ['0']
      | 1 => sign ++ piText out
      | k => sign ++ Nat.toDigits 10 k ++ mul ++ piText out
    else
      let numStr := if num = 1 then piText out else Nat.toDigits 10 num ++ mul ++ piText out
      sign ++ mkfrac out numStr (Nat.toDigits 10 frac.den)

end Graphix
