import Verif.Spec.AngleText
import Verif.Props.PrintText
import Verif.Props.PrintPattern

/-!
# C82: the text of an angle in every format
-/

namespace Graphix

theorem piText_eq (out : OutputFormat) : piText out = out.piName.toList := by cases out <;> rfl

theorem mulText_eq (out : OutputFormat) (mul : Bool) : mulText out mul = if mul then out.times.toList else [] := by
  cases out <;> cases mul <;> rfl

/-- The text of a term. -/
def termText (out : OutputFormat) (mul : Bool) (k : ℕ) : List Char :=
  if k = 1 then piText out else Nat.toDigits 10 k ++ mulText out mul ++ piText out

theorem digits_isDigit (n : ℕ) : ∀ c ∈ Nat.toDigits 10 n, c.isDigit = true := fun c hc => Nat.isDigit_of_mem_toDigits (by norm_num) (by norm_num) hc

theorem takeDigits (n : ℕ) (rest : List Char) (h : ∀ c, rest.head? = some c → c.isDigit = false) :
    (Nat.toDigits 10 n ++ rest).takeWhile Char.isDigit = Nat.toDigits 10 n ∧ (Nat.toDigits 10 n ++ rest).dropWhile Char.isDigit = rest := by
  rw [List.takeWhile_append_of_pos (digits_isDigit n), List.dropWhile_append_of_pos (digits_isDigit n)]
  cases rest with
  | nil => simp
  | cons c l =>
    have hc := h c rfl
    rw [List.takeWhile_cons, List.dropWhile_cons, hc]
    simp

theorem head_mulPi (out : OutputFormat) (mul : Bool) : ∀ c, (mulText out mul ++ piText out).head? = some c → c.isDigit = false := by
  cases out <;> cases mul <;> (intro c hc; simp only [mulText, piText, List.head?, List.cons_append, List.nil_append, Option.some.injEq, if_true, Bool.false_eq_true, if_false] at hc; subst hc; decide)

theorem readPiTerm_text (out : OutputFormat) (mul : Bool) (k : ℕ) : readPiTerm out mul (termText out mul k) = some (k * Real.pi) := by
  unfold termText
  by_cases hk : k = 1
  · subst hk
    rw [if_pos rfl]
    unfold readPiTerm
    cases out <;> simp [piText, OutputFormat.piName]
  · rw [if_neg hk]
    unfold readPiTerm
    obtain ⟨h1, h2⟩ := takeDigits k (mulText out mul ++ piText out) (head_mulPi out mul)
    rw [List.append_assoc]
    simp only [h1, h2]
    rw [if_neg (by simp), if_pos (by rw [mulText_eq, piText_eq]), Nat.ofDigitChars_toDigits (by norm_num) (by norm_num)]

theorem digit_ne {c d : Char} (hc : c.isDigit = true) (hd : d.isDigit = false) : c ≠ d := by rintro rfl; rw [hc] at hd; cases hd

theorem termText_noSep (out : OutputFormat) (mul : Bool) (k : ℕ) : ∀ c ∈ termText out mul k, c ≠ '/' ∧ c ≠ '}' ∧ c ≠ '-' := by
  have h1 : ∀ c ∈ mulText out mul ++ piText out, c ≠ '/' ∧ c ≠ '}' ∧ c ≠ '-' := by
    cases out <;> cases mul <;> decide
  intro c hc
  unfold termText at hc
  split at hc
  · exact h1 c (List.mem_append_right _ hc)
  · rw [List.append_assoc, List.mem_append] at hc
    rcases hc with hc | hc
    · have := digits_isDigit k c hc
      exact ⟨digit_ne this (by decide), digit_ne this (by decide), digit_ne this (by decide)⟩
    · exact h1 c hc

theorem termText_any (out : OutputFormat) (mul : Bool) (k : ℕ) : ∃ c ∈ termText out mul k, c = 'p' ∨ c = 'π' := by
  have h : ∃ c ∈ piText out, c = 'p' ∨ c = 'π' := by cases out <;> decide
  obtain ⟨c, hc, h⟩ := h
  refine ⟨c, ?_, h⟩
  unfold termText
  split
  · exact hc
  · exact List.mem_append_right _ hc

theorem takeUntil {x : Char} {l : List Char} (h : ∀ c ∈ l, c ≠ x) (rest : List Char) :
    (l ++ x :: rest).takeWhile (fun c => decide (c ≠ x)) = l ∧ (l ++ x :: rest).dropWhile (fun c => decide (c ≠ x)) = x :: rest := by
  have hp : ∀ c ∈ l, (fun c => decide (c ≠ x)) c = true := fun c hc => decide_eq_true (h c hc)
  rw [List.takeWhile_append_of_pos hp, List.dropWhile_append_of_pos hp, List.takeWhile_cons, List.dropWhile_cons]
  simp

theorem dropUntil_nil {x : Char} {l : List Char} (h : ∀ c ∈ l, c ≠ x) : l.dropWhile (fun c => decide (c ≠ x)) = [] := by
  induction l with
  | nil => rfl
  | cons c l ih =>
    rw [List.dropWhile_cons, if_pos (decide_eq_true (h c (by simp)))]
    exact ih fun d hd => h d (List.mem_cons_of_mem _ hd)

theorem noFrac_term (mul : Bool) (k : ℕ) : "\\frac{".toList.isPrefixOf (termText .latex mul k) = false := by
  unfold termText
  split
  · rfl
  · cases hd : Nat.toDigits 10 k with
    | nil => cases mul <;> rfl
    | cons c l =>
      have hc : c ≠ '\\' := digit_ne (digits_isDigit k c (by rw [hd]; simp)) (by decide)
      have : ('\\' == c) = false := by simpa using hc.symm
      show (('\\' == c) && _) = false
      rw [this]; rfl

theorem readPiFrac_term (out : OutputFormat) (mul : Bool) (k : ℕ) : readPiFrac out mul (termText out mul k) = some (k * Real.pi) := by
  unfold readPiFrac
  have h := fun c hc => (termText_noSep out mul k c hc).1
  by_cases ho : out = .latex
  · subst ho
    rw [if_pos rfl, if_neg (by rw [noFrac_term]; simp), readPiTerm_text]
  · rw [if_neg ho]
    simp only [dropUntil_nil h, if_true]
    exact readPiTerm_text out mul k

theorem readPiFrac_frac (out : OutputFormat) (mul : Bool) (k d : ℕ) :
    readPiFrac out mul (mkfrac out (termText out mul k) (Nat.toDigits 10 d)) = some (k * Real.pi / d) := by
  unfold readPiFrac
  have h := fun c hc => termText_noSep out mul k c hc
  by_cases ho : out = .latex
  · subst ho
    rw [if_pos rfl]
    have e : mkfrac .latex (termText .latex mul k) (Nat.toDigits 10 d) =
        ['\\', 'f', 'r', 'a', 'c', '{'] ++ (termText .latex mul k ++ '}' :: ('{' :: (Nat.toDigits 10 d ++ ['}']))) := by
      simp [mkfrac]
    rw [e, if_pos (by rfl)]
    have hd : (['\\', 'f', 'r', 'a', 'c', '{'] ++ (termText .latex mul k ++ '}' :: ('{' :: (Nat.toDigits 10 d ++ ['}'])))).drop 6 =
        termText .latex mul k ++ '}' :: ('{' :: (Nat.toDigits 10 d ++ ['}'])) := rfl
    simp only [hd]
    obtain ⟨h1, h2⟩ := takeUntil (fun c hc => (h c hc).2.1) ('{' :: (Nat.toDigits 10 d ++ ['}']))
    rw [h1, h2]
    obtain ⟨h3, h4⟩ := takeDigits d ['}'] (by intro c hc; cases hc; decide)
    simp only [List.drop_succ_cons, List.drop_zero, List.take_succ_cons, List.take_zero, h3, h4]
    rw [if_pos ⟨rfl, rfl⟩, readPiTerm_text, Nat.ofDigitChars_toDigits (by norm_num) (by norm_num)]
    rfl
  · rw [if_neg ho]
    have e : mkfrac out (termText out mul k) (Nat.toDigits 10 d) = termText out mul k ++ '/' :: Nat.toDigits 10 d := by
      cases out
      · simp [mkfrac]
      · exact absurd rfl ho
      · simp [mkfrac]
    obtain ⟨h1, h2⟩ := takeUntil (fun c hc => (h c hc).1) (Nat.toDigits 10 d)
    simp only [e, h1, h2]
    rw [if_neg (by simp), if_pos (by rw [List.tail_cons, List.all_eq_true]; exact digits_isDigit d), readPiTerm_text, List.tail_cons,
      Nat.ofDigitChars_toDigits (by norm_num) (by norm_num)]
    rfl

/-- A reader of decimal literals: it reads `0` and the texts of floats (the text of a number is that of a float near it), which have no letter `p`
and no `π`. -/
structure FloatTexts (rd : List Char → Option ℝ) (dec : ℝ → List Char) : Prop where
  zero : rd ['0'] = some 0
  read : ∀ x, ∃ y, rd (dec x) = some y ∧ |x - y| ≤ 1 / 10 ^ 9 * |x|
  plain : ∀ x, ∀ c ∈ dec x, c ≠ 'p' ∧ c ≠ 'π'

theorem readAngle_signed (rd : List Char → Option ℝ) (out : OutputFormat) (mul : Bool) (neg : Prop) [Decidable neg] (l : List Char) (x : ℝ)
    (h : readPiFrac out mul l = some x) (hp : ∃ c ∈ l, c = 'p' ∨ c = 'π') (hm : l.head? ≠ some '-') :
    readAngleText rd out mul ((if neg then ['-'] else []) ++ l) = some (if neg then -x else x) := by
  obtain ⟨c, hc, hp⟩ := hp
  unfold readAngleText
  rw [if_pos (by rw [List.any_eq_true]; exact ⟨c, List.mem_append_right _ hc, decide_eq_true hp⟩)]
  by_cases hn : neg
  · rw [if_pos hn, if_pos hn]
    simp only [List.cons_append, List.nil_append, h, Option.map_some]
  · rw [if_neg hn, if_neg hn, List.nil_append]
    split
    · exact absurd rfl hm
    · exact h

/-- **C82** In every format, with or without the multiplication sign, the text of an angle (given in units of π) reads as an angle in radians that is
equal to it up to a relative error of 1e-9; the multiplication sign is there exactly when it is asked for. -/
theorem C82_angle_text (env : PpEnv) (rd : List Char → Option ℝ) (dec : ℝ → List Char) (hf : FloatTexts rd dec) (out : OutputFormat) (mul : Bool) (a : ℝ) :
    ∃ x : ℝ, readAngleText rd out mul (angleText env dec out mul a) = some (x * Real.pi) ∧ |a - x| ≤ 1 / 10 ^ 9 * max |a| |x| := by
  unfold angleText
  simp only
  by_cases h : Isclose (1 / 10 ^ 9) 0 a (env.lim 1000 a)
  · rw [if_neg (not_not.2 h)]
    refine ⟨(env.lim 1000 a : ℝ), ?_, ?_⟩
    · generalize env.lim 1000 a = q
      have hq : (q : ℝ) * Real.pi = if q.num < 0 then -((q.num.natAbs : ℝ) * Real.pi / q.den) else (q.num.natAbs : ℝ) * Real.pi / q.den := by
        have h1 : (q : ℝ) = (q.num : ℝ) / q.den := Rat.cast_def q
        have h2 : ((q.num.natAbs : ℕ) : ℝ) = |(q.num : ℝ)| := by rw [Nat.cast_natAbs, Int.cast_abs]
        rw [h1, h2]
        split
        · next hn => rw [abs_of_neg (by exact_mod_cast hn)]; ring
        · next hn => rw [abs_of_nonneg (by exact_mod_cast not_lt.1 hn)]; ring
      have hhead : ∀ k, (termText out mul k).head? ≠ some '-' := fun k hk =>
        (termText_noSep out mul k '-' (List.mem_of_mem_head? hk)).2.2 rfl
      by_cases hden : q.den = 1
      · rw [if_pos hden]
        rw [hden] at hq
        have key : ∀ k, q.num.natAbs = k → readAngleText rd out mul ((if q.num < 0 then ['-'] else []) ++ termText out mul k) = some (q * Real.pi) := by
          intro k hk
          rw [readAngle_signed rd out mul _ _ _ (readPiFrac_term out mul k) (termText_any out mul k) (hhead k), hq, hk]
          simp
        match hk : q.num.natAbs with
        | 0 =>
          have : q = 0 := by rw [Int.natAbs_eq_zero] at hk; exact Rat.num_eq_zero.1 hk
          subst this
          have h0 : readAngleText rd out mul ['0'] = rd ['0'] := rfl
          simp only [h0, hf.zero, Rat.cast_zero, zero_mul]
        | 1 => exact key 1 hk
        | k + 2 =>
          have h2 : termText out mul (k + 2) = Nat.toDigits 10 (k + 2) ++ mulText out mul ++ piText out := if_neg (by omega)
          have := key (k + 2) hk
          rw [h2] at this
          simpa only [List.append_assoc] using this
      · rw [if_neg hden]
        have h1 : (if q.num.natAbs = 1 then piText out else Nat.toDigits 10 q.num.natAbs ++ mulText out mul ++ piText out) =
            termText out mul q.num.natAbs := rfl
        rw [h1, readAngle_signed rd out mul _ _ _ (readPiFrac_frac out mul _ _) ?_ ?_, hq]
        · obtain ⟨c, hc, hp⟩ := termText_any out mul q.num.natAbs
          refine ⟨c, ?_, hp⟩
          cases out <;> simp [mkfrac, hc]
        · have ht := hhead q.num.natAbs
          have hne : termText out mul q.num.natAbs ≠ [] := by
            obtain ⟨c, hc, -⟩ := termText_any out mul q.num.natAbs
            exact List.ne_nil_of_mem hc
          cases out
          · simpa only [mkfrac, List.append_assoc, List.head?_append_of_ne_nil _ hne] using ht
          · intro h; cases h
          · simpa only [mkfrac, List.append_assoc, List.head?_append_of_ne_nil _ hne] using ht
    · unfold Isclose at h
      refine h.trans (max_le le_rfl ?_)
      positivity
  · rw [if_pos h]
    obtain ⟨y, hy, hxy⟩ := hf.read (a * Real.pi)
    have hpi := Real.pi_pos
    refine ⟨y / Real.pi, ?_, ?_⟩
    · rw [div_mul_cancel₀ _ hpi.ne']
      unfold readAngleText
      rw [if_neg, hy]
      rw [List.any_eq_true]
      rintro ⟨c, hc, hp⟩
      have := hf.plain _ c hc
      rcases of_decide_eq_true hp with hp | hp
      · exact this.1 hp
      · exact this.2 hp
    · have e : a - y / Real.pi = (a * Real.pi - y) / Real.pi := by field_simp
      have h1 : |a - y / Real.pi| ≤ 1 / 10 ^ 9 * |a| := by
        rw [e, abs_div, abs_of_pos hpi, div_le_iff₀ hpi]
        calc _ ≤ _ := hxy
          _ = _ := by rw [abs_mul, abs_of_pos hpi]; ring
      exact h1.trans (mul_le_mul_of_nonneg_left (le_max_left _ _) (by norm_num))

theorem exists_near (x : ℝ) : ∃ q : ℚ, |x - q| ≤ 1 / 10 ^ 9 * |x| := by
  by_cases hx : x = 0
  · exact ⟨0, by simp [hx]⟩
  · have hp : 0 < 1 / 10 ^ 9 * |x| := by have := abs_pos.2 hx; positivity
    obtain ⟨q, hq⟩ := exists_rat_near x hp
    exact ⟨q, hq.le⟩

/-- There are texts and a reader as `C82_angle_text` supposes. -/
theorem floatTexts_exist : ∃ rd dec, FloatTexts rd dec := by
  choose q hq using exists_near
  refine ⟨fun l => if l = ['0'] then some 0 else (Encodable.decode (α := ℚ) l.length).map fun q => (q : ℝ),
    fun x => List.replicate (Encodable.encode (q x)) 'a', by simp, fun x => ⟨q x, ?_, hq x⟩, ?_⟩
  · have h : List.replicate (Encodable.encode (q x)) 'a' ≠ ['0'] := by
      intro h
      have : '0' ∈ List.replicate (Encodable.encode (q x)) 'a' := by rw [h]; simp
      have := List.eq_of_mem_replicate this
      exact absurd this (by decide)
    simp only [if_neg h, List.length_replicate, Encodable.encodek]
    rfl
  · intro x c hc
    rw [List.eq_of_mem_replicate hc]
    decide

/-- `3/2` is `3pi/2`, `\frac{3 \times \pi}{2}` and `3×π/2`. -/
example (dec : ℝ → List Char) (env : PpEnv) (henv : env.Valid) :
    angleText env dec .ascii false ((3 / 2 : ℚ) : ℝ) = "3pi/2".toList ∧ angleText env dec .latex true ((3 / 2 : ℚ) : ℝ) = "\\frac{3 \\times \\pi}{2}".toList ∧
    angleText env dec .unicode true ((3 / 2 : ℚ) : ℝ) = "3×π/2".toList := by
  have hd : (3 / 2 : ℚ).den = 2 := by norm_num
  have hn : (3 / 2 : ℚ).num = 3 := by norm_num
  have hl := henv.exact 1000 (3 / 2) (by rw [hd]; norm_num)
  unfold angleText
  simp only [hl, not_not.2 (isclose_self (by norm_num : (0 : ℝ) ≤ 0) _), if_false, hd, hn]
  refine ⟨rfl, rfl, rfl⟩

end Graphix
