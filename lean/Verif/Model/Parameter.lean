import Verif.Model.Pattern

/-!
# Model of `graphix/parameter.py`: affine expressions

Floats are real numbers; a parameter is identified by its number (`Placeholder.__eq__` is identity,
`parameter.py:324-329`).
-/

namespace Graphix

/-- `parameter.py:145-154` `AffineExpression(a, x, b)`, or a float (`ExpressionOrFloat`). -/
inductive Expr
  | aff (a : ℝ) (x : ℕ) (b : ℝ)
  | num (r : ℝ)

namespace Expr

/-- `parameter.py:281-307` `Placeholder(name)`. -/
noncomputable def placeholder (x : ℕ) : Expr := .aff 1 x 0

/-- `parameter.py:160-173` `scale_non_null` (on a float: multiplication). -/
noncomputable def scaleNonNull (k : ℝ) : Expr → Expr
  | .aff a x b => .aff (k * a) x (k * b)
  | .num r => .num (k * r)

open scoped Classical in
/-- `parameter.py:175-179` `scale`. -/
noncomputable def scale (k : ℝ) (e : Expr) : Expr := if k = 0 then .num 0 else e.scaleNonNull k

/-- `parameter.py:232-235` `__neg__`. -/
noncomputable def neg : Expr → Expr
  | .num r => .num (-r)
  | e => e.scaleNonNull (-1)

open scoped Classical in
/-- `parameter.py:195-214` `__add__`, `__radd__`, `offset` (156-158). -/
noncomputable def add : Expr → Expr → Except PyErr Expr
  | .num r, .num s => .ok (.num (r + s))
  | .aff a x b, .num d => .ok (.aff a x (b + d))
  | .num d, .aff a x b => .ok (.aff a x (b + d))
  | .aff a x b, .aff a' x' b' =>
    if x' ≠ x then .error .valueError  -- `PlaceholderOperationError` is a `ValueError` (l. 135)
    else if a + a' = 0 then .ok (.num 0)
    else .ok (.aff (a + a') x (b + b'))

/-- `parameter.py:216-230` `__sub__`, `__rsub__`. -/
noncomputable def sub : Expr → Expr → Except PyErr Expr
  | .num r, .num s => .ok (.num (r - s))
  | .aff a x b, .num d => add (.aff a x b) (.num (-d))
  | .num d, .aff a x b => add (scaleNonNull (-1) (.aff a x b)) (.num d)
  | .aff a x b, .aff a' x' b' => add (.aff a x b) (neg (.aff a' x' b'))

/-- `parameter.py:181-193` `__mul__`, `__rmul__`. -/
noncomputable def mul : Expr → Expr → Except PyErr Expr
  | .num r, .num s => .ok (.num (r * s))
  | .aff a x b, .num k => .ok (scale k (.aff a x b))
  | .num k, .aff a x b => .ok (scale k (.aff a x b))
  | .aff _ _ _, .aff _ _ _ => .error .typeError

open scoped Classical in
/-- `parameter.py:237-242` `__truediv__` (there is no `__rtruediv__`). -/
noncomputable def div : Expr → Expr → Except PyErr Expr
  | .num r, .num s => if s = 0 then .error .zeroDivisionError else .ok (.num (r / s))
  | .aff a x b, .num k => if k = 0 then .error .zeroDivisionError else .ok (scale (1 / k) (.aff a x b))
  | _, .aff _ _ _ => .error .typeError

/-- `parameter.py:256-260` `evaluate` of `a * x + b`. -/
noncomputable def evaluate (a b : ℝ) (value : Expr) : Except PyErr Expr := do
  let p ← mul (.num a) value
  add p (.num b)

/-- `parameter.py:262-269` `with_parameter` (`subs`, 106-108); a float is unchanged (385-402). -/
noncomputable def subs (e : Expr) (var : ℕ) (substitute : Expr) : Except PyErr Expr :=
  match e with
  | .aff a x b => if var = x then evaluate a b substitute else .ok (.aff a x b)
  | .num r => .ok (.num r)

/-- `parameter.py:271-278` `with_parameters` (`xreplace`). -/
noncomputable def xreplace (e : Expr) (assignment : ℕ → Option Expr) : Except PyErr Expr :=
  match e with
  | .aff a x b =>
    match assignment x with
    | some value => evaluate a b value
    | none => .ok (.aff a x b)
  | .num r => .ok (.num r)

end Expr
end Graphix
