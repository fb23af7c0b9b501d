import Verif.Model.Parameter
import Mathlib.Tactic.Ring
import Mathlib.Tactic.FieldSimp
import Mathlib.Tactic.NormNum
import Mathlib.Tactic.LinearCombination

/-!
# C44: affine parameter arithmetic

`Expr.val v e` is the value of the expression when the parameters have the values `v` (specification).
-/

namespace Graphix
namespace Expr

/-- Value of an expression. -/
noncomputable def val (v : ℕ → ℝ) : Expr → ℝ
  | .aff a x b => a * v x + b
  | .num r => r

/-- The sum of the two expressions does not lose its parameter: they are not affine expressions in the same
parameter with opposite slopes (unless the offsets cancel as well). -/
def NoCancel : Expr → Expr → Prop
  | .aff a _ b, .aff a' _ b' => a + a' = 0 → b + b' = 0
  | _, _ => True

theorem scaleNonNull_val (v : ℕ → ℝ) (k : ℝ) (e : Expr) : (e.scaleNonNull k).val v = k * e.val v := by
  cases e <;> simp [scaleNonNull, val] <;> ring

theorem scale_val (v : ℕ → ℝ) (k : ℝ) (e : Expr) : (e.scale k).val v = k * e.val v := by
  unfold scale
  split
  · rename_i h; simp [val, h]
  · exact scaleNonNull_val v k e

/-- **C44** Negation. -/
theorem C44_neg (v : ℕ → ℝ) (e : Expr) : e.neg.val v = - e.val v := by
  cases e <;> simp [neg, scaleNonNull, val] <;> ring

/-- **C44** Multiplication, whenever it is accepted. -/
theorem C44_mul (v : ℕ → ℝ) (e f g : Expr) (h : mul e f = .ok g) : g.val v = e.val v * f.val v := by
  cases e <;> cases f <;> simp only [mul, Except.ok.injEq, reduceCtorEq] at h <;> subst h <;>
    first
      | (rw [scale_val]; simp only [val]; done)
      | (rw [scale_val]; simp only [val]; ring)
      | simp only [val]

/-- **C44** Division, whenever it is accepted (in particular the divisor is not zero). -/
theorem C44_div (v : ℕ → ℝ) (e f g : Expr) (h : div e f = .ok g) :
    f.val v ≠ 0 ∧ g.val v = e.val v / f.val v := by
  cases e <;> cases f <;> simp only [div] at h <;> try cases h
  all_goals
    split at h
    · cases h
    · rename_i hne
      refine ⟨by simpa [val] using hne, ?_⟩
      obtain rfl := Except.ok.inj h
      first
        | (rw [scale_val]; simp only [val]; field_simp)
        | simp [val]

/-- **C44** Addition is accepted except for two different parameters. -/
theorem C44_add_defined (e f : Expr) :
    (∃ g, add e f = .ok g) ↔ ∀ a x b a' x' b', e = .aff a x b → f = .aff a' x' b' → x = x' := by
  cases e <;> cases f <;> simp only [add]
  · rename_i a x b a' x' b'
    by_cases h : x' = x
    · subst h
      simp only [ne_eq, not_true_eq_false, if_false]
      constructor
      · intro _ a1 x1 b1 a2 x2 b2 h1 h2
        injection h1 with _ h1; injection h2 with _ h2; rw [← h1, ← h2]
      · intro _; split <;> exact ⟨_, rfl⟩
    · simp only [ne_eq, h, not_false_eq_true, if_true]
      constructor
      · rintro ⟨g, hg⟩; cases hg
      · intro hh; exact absurd (hh _ _ _ _ _ _ rfl rfl).symm h
  all_goals simp

/-- **C44** (partial) Addition, whenever it is accepted, provided that the parameter does not cancel.
Missing: the cancelling case, where the code is wrong (`C44_add_cancel_wrong`). -/
theorem C44_add_partial (v : ℕ → ℝ) (e f g : Expr) (hc : NoCancel e f) (h : add e f = .ok g) :
    g.val v = e.val v + f.val v := by
  cases e <;> cases f <;> simp only [add] at h
  · rename_i a x b a' x' b'
    split at h
    · cases h
    · rename_i hx
      obtain rfl := not_not.1 hx
      split at h
      · rename_i ha
        obtain rfl := Except.ok.inj h
        have hb := hc ha
        simp only [val]
        linear_combination (-(v x')) * ha - hb
      · obtain rfl := Except.ok.inj h
        simp only [val]; ring
  all_goals obtain rfl := Except.ok.inj h; simp only [val]
  all_goals try ring

/-- **C44** (partial) Subtraction, with the same restriction. -/
theorem C44_sub_partial (v : ℕ → ℝ) (e f g : Expr) (hc : NoCancel e f.neg) (h : sub e f = .ok g) :
    g.val v = e.val v - f.val v := by
  cases e <;> cases f <;> simp only [sub] at h
  · rw [C44_add_partial v _ _ _ hc h, C44_neg]; ring
  · rename_i a x b d
    rw [C44_add_partial v (.aff a x b) (.num (-d)) g trivial h]; simp only [val]; ring
  · rename_i d a x b
    rw [C44_add_partial v (scaleNonNull (-1) (.aff a x b)) (.num d) g trivial h, scaleNonNull_val]; simp only [val]; ring
  · obtain rfl := Except.ok.inj h; simp only [val]

/-- **C44** is false in general: when the parameter cancels, the offsets are lost.  For every pair of
expressions `a·x + b` and `-a·x + b'` with `b + b' ≠ 0`, the sum computed by the code has not the value of the
sum (e.g. `(x + 1) - x` is `0`). -/
theorem C44_add_cancel_wrong (v : ℕ → ℝ) (a b b' : ℝ) (x : ℕ) (h : b + b' ≠ 0) :
    ∃ g, add (.aff a x b) (.aff (-a) x b') = .ok g ∧ g.val v ≠ (Expr.aff a x b).val v + (Expr.aff (-a) x b').val v := by
  refine ⟨.num 0, by simp [add], ?_⟩
  simp only [val]
  intro h0
  apply h
  linear_combination -h0

/-- **C44** Substituting an expression for a parameter and evaluating is evaluating with the parameter set to
the value of the expression. -/
theorem C44_subs (v : ℕ → ℝ) (e f g : Expr) (x : ℕ) (h : subs e x f = .ok g) :
    g.val v = e.val (Function.update v x (f.val v)) := by
  have hev : ∀ (a b : ℝ) (f g : Expr), evaluate a b f = .ok g → g.val v = a * f.val v + b := by
    intro a b f g h
    unfold evaluate at h
    cases f with
    | num r =>
      simp only [mul, bind, Except.bind, add, Except.ok.injEq] at h
      subst h; simp [val]
    | aff a' x' b' =>
      simp only [mul, bind, Except.bind] at h
      have e1 := scale_val v a (.aff a' x' b')
      rw [← e1]
      generalize scale a (.aff a' x' b') = w at h
      have := C44_add_partial v _ _ _ (by cases w <;> trivial) h
      rw [this]; rfl
  cases e with
  | num r => simp only [subs, Except.ok.injEq] at h; subst h; rfl
  | aff a y b =>
    simp only [subs] at h
    split at h
    · rename_i hxy
      subst hxy
      rw [hev _ _ _ _ h]; simp [val]
    · rename_i hxy
      obtain rfl := Except.ok.inj h
      simp [val, Function.update_of_ne (Ne.symm hxy)]

/-- **C44** Substitution is always accepted when the substituted value is a number, and the result is then a
number if no other parameter occurs. -/
theorem C44_subs_defined (e : Expr) (x : ℕ) (r : ℝ) : ∃ g, subs e x (.num r) = .ok g := by
  cases e with
  | num s => exact ⟨_, rfl⟩
  | aff a y b =>
    simp only [subs]
    split
    · exact ⟨_, rfl⟩
    · exact ⟨_, rfl⟩

/-- **C44** Simultaneous substitution. -/
theorem C44_xreplace (v : ℕ → ℝ) (e g : Expr) (s : ℕ → Option Expr) (h : xreplace e s = .ok g) :
    g.val v = e.val (fun x => match s x with | some f => f.val v | none => v x) := by
  cases e with
  | num r => simp only [xreplace, Except.ok.injEq] at h; subst h; rfl
  | aff a y b =>
    simp only [xreplace] at h
    cases hs : s y with
    | none => simp only [hs] at h; obtain rfl := Except.ok.inj h; simp [val, hs]
    | some f =>
      simp only [hs] at h
      have := C44_subs v (.aff a y b) f g y (by simpa [subs] using h)
      rw [this]; simp [val, hs]

/-- `(2 * x + 1) - x` with `x := 3` is `4`. -/
example : ∃ g, sub (.aff 2 0 1) (placeholder 0) = .ok g ∧ g.val (fun _ => 3) = 4 := by
  refine ⟨_, by simp only [sub, placeholder, neg, scaleNonNull, add]; norm_num; rfl, ?_⟩
  norm_num [val]

end Expr
end Graphix
