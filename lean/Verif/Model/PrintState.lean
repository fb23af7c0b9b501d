import Verif.Model.PrettyPrint
import Verif.Model.Readout

/-!
# Model of the part of `graphix/pretty_print.py` that prints state vectors

ASCII format, entries are numbers (the `except (TypeError, ValueError)` of symbolic entries is not modelled).
-/

namespace Graphix

open scoped Classical

/-- `pretty_print.py:810-812` `_needs_parentheses`: the text has ` + ` or ` - `. -/
def needsParentheses (c : List PTok) : Bool := c.any fun t => match t with | .add | .sub => true | _ => false

/-- The comparison `text == "1"`: a decimal literal can also be written `1`. -/
def isOneText : List PTok → Prop
  | [.nat n] => n = 1
  | [.dec x] => x = 1
  | _ => False

/-- The comparison `text == "-1"`. -/
def isMinusOneText : List PTok → Prop
  | .neg :: l => isOneText l
  | _ => False

/-- `pretty_print.py:851-869` (with `paren = false`) and `pretty_print.py:921-929`: a coefficient and its ket. -/
noncomputable def termToks (paren : Bool) (c : List PTok) (k : List Char) : List PTok :=
  if isOneText c then [.ket k]
  else if isMinusOneText c then [.neg, .ket k]
  else if paren = true ∧ needsParentheses c = true then [PTok.lpar] ++ c ++ [.rpar, .ket k]
  else c ++ [.ket k]

/-- `pretty_print.py:870-876, 930-935`: the next term with its connector (`term.startswith("-")`). -/
def connectTerm : List PTok → List PTok
  | .neg :: t => .sub :: t
  | t => .add :: t

/-- `pretty_print.py:870-876, 930-935`: the loop that joins the terms. -/
def joinTerms : List (List PTok) → List PTok
  | [] => []
  | t :: ts => t ++ ts.flatMap connectTerm

/-- `pretty_print.py:815-877` `_factor_uniform_magnitude`. -/
noncomputable def factorUniform (env : PpEnv) (d : List (List Char × ℂ)) (md : ℕ) (atol rtol : ℝ) (precision : ℕ) : Option (List PTok) :=
  match d with
  | [] => none
  | [_] => none
  | (_, a) :: _ =>
    if ‖a‖ = 0 ∨ ∃ kv ∈ d, ¬ Isclose rtol atol ‖kv.2‖ ‖a‖ then none
    else
      let radius := complexToStr env ((‖a‖ : ℝ) : ℂ) md atol rtol precision
      if isOneText radius then none
      else some (radius ++ [.lpar] ++
        joinTerms (d.map fun kv => termToks false (complexToStr env (kv.2 / ((‖a‖ : ℝ) : ℂ)) md atol rtol precision) kv.1) ++ [.rpar])

/-- `pretty_print.py:905-936`: `statevec_to_str` after the call of `to_dict`. -/
noncomputable def dictToStr (env : PpEnv) (d : List (List Char × ℂ)) (md : ℕ) (atol rtol : ℝ) (precision : ℕ) : List PTok :=
  if d = [] then [.nat 0]
  else (factorUniform env d md atol rtol precision).getD
    (joinTerms (d.map fun kv => termToks true (complexToStr env kv.2 md atol rtol precision) kv.1))

/-- `pretty_print.py:880-936` `statevec_to_str`. -/
noncomputable def statevecToStr (env : PpEnv) (sv : Statevector) (e : Encoding) (md : ℕ) (atol rtol : ℝ) (precision : ℕ) : List PTok :=
  dictToStr env (sv.toDict e rtol atol) md atol rtol precision

end Graphix
