import Verif.Model.PrettyPrint
import Verif.Model.DensityMatrix

/-!
# Model of the part of `graphix/pretty_print.py` that prints density matrices

ASCII format, as characters: the alignment of the columns counts characters. The text of a decimal literal is a parameter (`dec`).
-/

namespace Graphix

/-- The characters of a token of `PTok`. -/
def PTok.chars (dec : ℝ → List Char) : PTok → List Char
  | .neg => ['-']
  | .add => [' ', '+', ' ']
  | .sub => [' ', '-', ' ']
  | .pos => ['+']
  | .nat n => Nat.toDigits 10 n
  | .dec x => dec x
  | .sqrt n => ['s', 'q', 'r', 't', '('] ++ Nat.toDigits 10 n ++ [')']
  | .imag => ['i']
  | .pi => ['p', 'i']
  | .div => ['/']
  | .times => ['*']
  | .expo => ['e', '^', '(']
  | .rpar => [')']
  | .lpar => ['(']
  | .ket s => ['|'] ++ s ++ ['>']

/-- The characters of a text. -/
def tokText (dec : ℝ → List Char) (l : List PTok) : List Char := l.flatMap (PTok.chars dec)

/-- `str.rjust(width)`. -/
def rjust (w : ℕ) (s : List Char) : List Char := List.replicate (w - s.length) ' ' ++ s

/-- `sep.join(parts)`. -/
def joinText (sep : List Char) : List (List Char) → List Char
  | [] => []
  | [x] => x
  | x :: y :: l => x ++ sep ++ joinText sep (y :: l)

/-- `pretty_print.py:996`: the length of the longest text of a column. -/
def columnWidth (rows : List (List (List Char))) (col : ℕ) : ℕ := (rows.map fun row => (row.getD col []).length).foldl max 0

/-- `pretty_print.py:996-998`: the widths of the columns, and the lines. -/
def alignGrid (rows : List (List (List Char))) : List Char :=
  joinText ['\n'] (rows.map fun row =>
    ['[', ' '] ++ joinText [' ', ' '] (row.zipIdx.map fun ec => rjust (columnWidth rows ec.2) ec.1) ++ [' ', ']'])

/-- `pretty_print.py:950-998` `density_matrix_to_str` (ASCII). -/
noncomputable def densityMatrixToStr (env : PpEnv) (dec : ℝ → List Char) (dm : DensityMatrix) (md : ℕ) (atol rtol : ℝ) (precision : ℕ) : List Char :=
  alignGrid ((List.range dm.rho.rows).map fun i => (List.range dm.rho.cols).map fun j =>
    tokText dec (complexToStr env (dm.rho.entry i j) md atol rtol precision))

end Graphix
