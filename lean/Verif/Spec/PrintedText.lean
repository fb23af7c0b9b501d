import Verif.Spec.PrintedState

/-!
# Specification: how a reader splits the characters of a printed number or state

A sign, an operator or a name is recognized by its characters; a number is the longest text of digits, points and exponents; a ket
is `|…>`.
-/

namespace Graphix

/-- The tokens with a fixed text. -/
def fixedToks : List (List Char × PTok) :=
  [(['-'], .neg), ([' ', '+', ' '], .add), ([' ', '-', ' '], .sub), (['+'], .pos), (['i'], .imag), (['p', 'i'], .pi), (['/'], .div), (['*'], .times),
    (['e', '^', '('], .expo), ([')'], .rpar), (['('], .lpar)]

/-- The longest number at the beginning of a text (`b`: an exponent has just begun), and the rest. `e^` does not begin an exponent. -/
def numPart : Bool → List Char → List Char × List Char
  | _, [] => ([], [])
  | b, c :: l =>
    if c.isDigit = true ∨ c = '.' then (c :: (numPart false l).1, (numPart false l).2)
    else if c = 'e' ∧ l.head? ≠ some '^' then (c :: (numPart true l).1, (numPart true l).2)
    else if b = true ∧ (c = '+' ∨ c = '-') then (c :: (numPart false l).1, (numPart false l).2)
    else ([], c :: l)

/-- The first token of a text, and the rest. `rd` reads a decimal literal. -/
noncomputable def lexTok (rd : List Char → Option ℝ) (l : List Char) : Option (PTok × List Char) :=
  match fixedToks.find? fun kt => kt.1.isPrefixOf l with
  | some kt => some (kt.2, l.drop kt.1.length)
  | none =>
    if (['s', 'q', 'r', 't', '('] : List Char).isPrefixOf l then
      if ((l.drop 5).dropWhile Char.isDigit).head? = some ')' then
        some (.sqrt (Nat.ofDigitChars 10 ((l.drop 5).takeWhile Char.isDigit) 0), ((l.drop 5).dropWhile Char.isDigit).tail)
      else none
    else if (['|'] : List Char).isPrefixOf l then
      if l.tail.dropWhile (fun c => decide (c ≠ '>')) = [] then none
      else some (.ket (l.tail.takeWhile fun c => decide (c ≠ '>')), (l.tail.dropWhile fun c => decide (c ≠ '>')).tail)
    else if (numPart false l).1 = [] then none
    else if (numPart false l).1.all Char.isDigit = true then some (.nat (Nat.ofDigitChars 10 (numPart false l).1 0), (numPart false l).2)
    else (rd (numPart false l).1).map fun x => (.dec x, (numPart false l).2)

/-- The tokens of a text. -/
noncomputable def lexText (rd : List Char → Option ℝ) : ℕ → List Char → Option (List PTok)
  | _, [] => some []
  | 0, _ :: _ => none
  | n + 1, c :: l =>
    match lexTok rd (c :: l) with
    | none => none
    | some (t, r) => (lexText rd n r).map (t :: ·)

/-- The number that is written in a text. -/
noncomputable def readText (rd : List Char → Option ℝ) (l : List Char) : Option ℂ := (lexText rd l.length l).bind readNumber

/-- The kets and the coefficients that are written in a text. -/
noncomputable def readStateText (rd : List Char → Option ℝ) (l : List Char) : Option (List (List Char × ℂ)) :=
  (lexText rd l.length l).bind readState

/-- A decimal literal: digits and points, beginning with a digit, and possibly an exponent with its sign (`1.5`, `2`, `1.235e-05`). -/
def DecShape (s : List Char) : Prop :=
  ∃ c m e, s = c :: m ++ e ∧ c.isDigit = true ∧ (∀ x ∈ m, x.isDigit = true ∨ x = '.') ∧
    (e = [] ∨ ∃ sg d, e = 'e' :: sg :: d ∧ (sg = '+' ∨ sg = '-') ∧ ∀ x ∈ d, x.isDigit = true)

/-- What is assumed of `f"{x:.{p}g}"` and of the reader of literals: the text of the number that is written has the shape of a literal and reads as this
number; a text of digits reads as the natural number. -/
structure Literals (env : PpEnv) (rd : List Char → Option ℝ) (dec : ℝ → List Char) : Prop where
  shape : ∀ p x, DecShape (dec |env.fmt p x|)
  read : ∀ p x, rd (dec |env.fmt p x|) = some |env.fmt p x|
  nat : ∀ s, s ≠ [] → (∀ c ∈ s, c.isDigit = true) → rd s = some (Nat.ofDigitChars 10 s 0 : ℕ)

end Graphix
