import Mathlib.Data.List.Infix
import Mathlib.Order.Monotone.Basic

/-!
# Specification: how a reader understands a printed matrix

One line per row, between `[ ` and ` ]`; two spaces (or more) separate the cells of a line; a single space belongs to its cell.
-/

namespace Graphix

/-- The lines of a text; `cur` is the part of the current line that is read. -/
def readLines (cur : List Char) : List Char → List (List Char)
  | [] => [cur]
  | c :: l => if c = '\n' then cur :: readLines [] l else readLines (cur ++ [c]) l

/-- The cells of a line; `cur` is the part of the current cell that is read. -/
def readCells (cur : List Char) : List Char → List (List Char)
  | [] => if cur = [] then [] else [cur]
  | c :: l =>
    if c = ' ' then
      if cur = [] then readCells [] l
      else if l.head? = some ' ' then cur :: readCells [] l
      else readCells (cur ++ [' ']) l
    else readCells (cur ++ [c]) l

/-- What is between the brackets of a line. -/
def insideBrackets (l : List Char) : Option (List Char) :=
  if l.take 2 = ['[', ' '] ∧ l.drop (l.length - 2) = [' ', ']'] ∧ 4 ≤ l.length then some ((l.drop 2).take (l.length - 4)) else none

/-- The texts of the entries of a printed matrix. -/
def readGrid (l : List Char) : Option (List (List (List Char))) :=
  (readLines [] l).mapM fun line => (insideBrackets line).map (readCells [])

/-- The columns are aligned to the right: the entries of column `j` end at the same place in all lines, and the lines have the same length. -/
def Aligned (lines : List (List Char)) (rows : List (List (List Char))) : Prop :=
  ∃ (len : ℕ) (stop : ℕ → ℕ), StrictMono stop ∧ lines.length = rows.length ∧ ∀ i (hi : i < lines.length) (hi' : i < rows.length),
    lines[i].length = len ∧ ∀ j (hj : j < rows[i].length), rows[i][j] <:+ lines[i].take (stop j) ∧ stop j ≤ len

end Graphix
