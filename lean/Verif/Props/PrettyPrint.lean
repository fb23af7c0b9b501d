import Verif.Spec.PrintedNumber
import Mathlib.Analysis.SpecialFunctions.Trigonometric.Bounds

/-!
# C71: printed numbers
-/

namespace Graphix

open scoped Classical

/-! ### Squarefree decomposition -/

theorem divideOut_spec {d : ℕ} (hd : 2 ≤ d) (o n : ℕ) (hn : 0 < n) :
    (divideOut d o n).1 ^ 2 * (divideOut d o n).2 = o ^ 2 * n ∧ 0 < (divideOut d o n).2 ∧ ¬ d * d ∣ (divideOut d o n).2 ∧
      (divideOut d o n).2 ∣ n := by
  induction o, n using divideOut.induct (d := d) with
  | case1 o n h ih =>
    rw [divideOut, dif_pos h]
    obtain ⟨-, h2, h3⟩ := h
    obtain ⟨c, rfl⟩ := Nat.dvd_of_mod_eq_zero h3
    have hdd : 0 < d * d := by positivity
    have e : d * d * c / (d * d) = c := Nat.mul_div_cancel_left c hdd
    have hc : 0 < c := Nat.pos_of_mul_pos_left h2 |> fun h => by
      rcases Nat.eq_zero_or_pos c with rfl | h'
      · simp at h2
      · exact h'
    rw [e] at ih ⊢
    obtain ⟨i1, i2, i3, i4⟩ := ih hc
    refine ⟨by rw [i1]; ring, i2, i3, i4.trans (Dvd.intro_left _ rfl)⟩
  | case2 o n h =>
    rw [divideOut, dif_neg h]
    refine ⟨rfl, hn, fun hdv => h ⟨hd, hn, Nat.mod_eq_zero_of_dvd hdv⟩, dvd_refl _⟩

theorem squarefreeLoop_spec (d o n : ℕ) (hd : 2 ≤ d) (hn : 0 < n) (h : ∀ k, 2 ≤ k → k < d → ¬ k * k ∣ n) :
    (squarefreeLoop d o n).1 ^ 2 * (squarefreeLoop d o n).2 = o ^ 2 * n ∧ 0 < (squarefreeLoop d o n).2 ∧ Squarefree (squarefreeLoop d o n).2 := by
  induction d, o, n using squarefreeLoop.induct with
  | case1 d o n hle ih =>
    rw [squarefreeLoop, dif_pos hle]
    obtain ⟨h1, h2, h3, h4⟩ := divideOut_spec hd o n hn
    obtain ⟨i1, i2, i3⟩ := ih (by omega) h2 (by
      intro k hk hkd hdv
      rcases Nat.lt_succ_iff_lt_or_eq.1 hkd with hlt | rfl
      · exact h k hk hlt (hdv.trans h4)
      · exact h3 hdv)
    exact ⟨i1.trans h1, i2, i3⟩
  | case2 d o n hle =>
    rw [squarefreeLoop, dif_neg hle]
    refine ⟨rfl, hn, fun k hk => ?_⟩
    rw [Nat.isUnit_iff]
    by_contra h1
    have hk0 : k ≠ 0 := by rintro rfl; simp at hk; omega
    have hk2 : 2 ≤ k := by omega
    have hkn := Nat.le_of_dvd hn hk
    refine h k hk2 ?_ hk
    by_contra hge
    push Not at hge
    exact hle ((Nat.mul_le_mul hge hge).trans hkn)

/-- **C71** The squarefree decomposition: `outer ** 2 * inner == n` and `inner` is squarefree, for every natural number. -/
theorem C71_squarefree (n : ℕ) :
    (squarefreeDecomposition n).1 ^ 2 * (squarefreeDecomposition n).2 = n ∧ Squarefree (squarefreeDecomposition n).2 := by
  unfold squarefreeDecomposition
  split_ifs with h
  · subst h; exact ⟨rfl, squarefree_one⟩
  · obtain ⟨h1, -, h3⟩ := squarefreeLoop_spec 2 1 n le_rfl (Nat.pos_of_ne_zero h) (fun k h1 h2 => by omega)
    exact ⟨by rw [h1]; ring, h3⟩

example : squarefreeDecomposition 72 = (6, 2) := by
  have := C71_squarefree 72
  decide +kernel

/-! ### Square roots -/

/-- The number `s * sqrt(i) / d`. -/
noncomputable def rootValue (s : ℤ) (i d : ℕ) : ℝ := s * Real.sqrt i / d

theorem rootValue_neg {v : ℝ} {n i d : ℕ} (h : v = (n : ℝ) * Real.sqrt i / (d : ℝ)) : rootValue (-1 * (n : ℤ)) i d = -v := by
  rw [h]; unfold rootValue; push_cast; ring

theorem rootValue_pos {v : ℝ} {n i d : ℕ} (h : v = (n : ℝ) * Real.sqrt i / (d : ℝ)) : rootValue (1 * (n : ℤ)) i d = v := by
  rw [h]; unfold rootValue; push_cast; ring

theorem isclose_self {rtol atol : ℝ} (ha : 0 ≤ atol) (x : ℝ) : Isclose rtol atol x x := by
  unfold Isclose; rw [sub_self, abs_zero]; exact le_max_of_le_right ha

/-- The value that comes from the square is the square root of the fraction. -/
theorem root_of_square (q : ℚ) (hq : 0 ≤ q) :
    let n := squarefreeDecomposition q.num.toNat
    let d := squarefreeDecomposition q.den
    let c := squarefreeDecomposition (n.2 * d.2)
    Real.sqrt q = (n.1 * c.1 : ℕ) * Real.sqrt c.2 / (d.1 * d.2 : ℕ) := by
  intro n d c
  obtain ⟨n1, -⟩ := C71_squarefree q.num.toNat
  obtain ⟨d1, -⟩ := C71_squarefree q.den
  obtain ⟨c1, -⟩ := C71_squarefree (n.2 * d.2)
  have hden : (0 : ℝ) < q.den := by exact_mod_cast q.den_pos
  have hd1 : (d.1 : ℝ) ^ 2 * d.2 = q.den := by exact_mod_cast d1
  have hn1 : (n.1 : ℝ) ^ 2 * n.2 = q.num := by
    have : ((q.num.toNat : ℤ)) = q.num := Int.toNat_of_nonneg (Rat.num_nonneg.2 hq)
    have h2 : (q.num : ℝ) = (q.num.toNat : ℝ) := by exact_mod_cast this.symm
    rw [h2]; exact_mod_cast n1
  have hc1 : (c.1 : ℝ) ^ 2 * c.2 = n.2 * d.2 := by exact_mod_cast c1
  have hdpos : (0 : ℝ) < (d.1 : ℝ) * d.2 := by
    rcases Nat.eq_zero_or_pos d.1 with h | h
    · rw [h] at hd1; simp at hd1; linarith
    · rcases Nat.eq_zero_or_pos d.2 with h' | h'
      · rw [h'] at hd1; simp at hd1; linarith
      · positivity
  have hq' : (q : ℝ) = ((n.1 * c.1 : ℕ) * Real.sqrt c.2 / (d.1 * d.2 : ℕ)) ^ 2 := by
    rw [div_pow, mul_pow, Real.sq_sqrt (Nat.cast_nonneg _)]
    push_cast
    rw [Rat.cast_def, ← hn1, ← hd1]
    have h1 : (d.1 : ℝ) ≠ 0 := fun h => by rw [h] at hdpos; simp at hdpos
    have h2 : (d.2 : ℝ) ≠ 0 := fun h => by rw [h] at hdpos; simp at hdpos
    rw [mul_pow, mul_assoc, hc1]
    field_simp
  rw [hq', Real.sqrt_sq (by positivity)]

theorem root_reduced (q : ℚ) (hq : 0 ≤ q) :
    let n := squarefreeDecomposition q.num.toNat
    let d := squarefreeDecomposition q.den
    let c := squarefreeDecomposition (n.2 * d.2)
    let g := Nat.gcd (n.1 * c.1) (d.1 * d.2)
    Squarefree c.2 ∧ 0 < d.1 * d.2 / g ∧ d.1 * d.2 / g ≤ q.den ∧ Nat.Coprime (n.1 * c.1 / g) (d.1 * d.2 / g) ∧
      Real.sqrt q = (n.1 * c.1 / g : ℕ) * Real.sqrt c.2 / (d.1 * d.2 / g : ℕ) := by
  intro n d c g
  have hr : Real.sqrt q = (n.1 * c.1 : ℕ) * Real.sqrt c.2 / (d.1 * d.2 : ℕ) := root_of_square q hq
  obtain ⟨d1, -⟩ := C71_squarefree q.den
  obtain ⟨-, c2⟩ := C71_squarefree (n.2 * d.2)
  have hdp : 0 < d.1 ^ 2 * d.2 := by
    have : d.1 ^ 2 * d.2 = q.den := d1
    rw [this]; exact q.den_pos
  have hd1 : 0 < d.1 := Nat.pos_of_ne_zero fun h => by rw [h] at hdp; simp at hdp
  have hd2 : 0 < d.2 := Nat.pos_of_ne_zero fun h => by rw [h] at hdp; simp at hdp
  have hD : 0 < d.1 * d.2 := Nat.mul_pos hd1 hd2
  have hg : 0 < g := Nat.gcd_pos_of_pos_right _ hD
  have hgN : g ∣ n.1 * c.1 := Nat.gcd_dvd_left _ _
  have hgD : g ∣ d.1 * d.2 := Nat.gcd_dvd_right _ _
  refine ⟨c2, Nat.div_pos (Nat.le_of_dvd hD hgD) hg, ?_, Nat.coprime_div_gcd_div_gcd hg, ?_⟩
  · refine (Nat.div_le_self _ _).trans ?_
    have : d.1 ^ 2 * d.2 = q.den := d1
    rw [← this]
    exact Nat.mul_le_mul_right _ (by nlinarith)
  · have hg' : (g : ℝ) ≠ 0 := by exact_mod_cast hg.ne'
    have hD' : ((d.1 * d.2 : ℕ) : ℝ) ≠ 0 := by exact_mod_cast hD.ne'
    rw [Nat.cast_div hgN hg', Nat.cast_div hgD hg']
    rw [hr]
    change _ = ((n.1 * c.1 : ℕ) : ℝ) / g * Real.sqrt c.2 / (((d.1 * d.2 : ℕ) : ℝ) / g)
    field_simp

/-- **C71** When a number is recognized as `s * sqrt(i) / d`, `i` is squarefree, the fraction is reduced, its denominator is at most
`max_denominator`, and the value is close to the number, or has the same sign and a close square. -/
theorem C71_recognize (env : PpEnv) (henv : env.Valid) (x : ℝ) (md : ℕ) (hmd : 0 < md) (atol rtol : ℝ) (s : ℤ) (i d : ℕ)
    (h : recognizeSqrt env x md atol rtol = some (s, i, d)) :
    Squarefree i ∧ 0 < d ∧ d ≤ md ∧ Nat.Coprime s.natAbs d ∧
    (Isclose rtol atol x (rootValue s i d) ∨
      (Isclose rtol atol (x * x) (rootValue s i d * rootValue s i d) ∧ 0 ≤ x * rootValue s i d)) := by
  unfold recognizeSqrt at h
  simp only at h
  split_ifs at h with h1 h2 h3 h4
  · simp only [Option.some.injEq, Prod.mk.injEq] at h
    obtain ⟨rfl, rfl, rfl⟩ := h
    have e : (-1 : ℤ) * ((env.lim md x).num.natAbs : ℤ) = (env.lim md x).num := by omega
    rw [e]
    refine ⟨squarefree_one, Rat.den_pos _, henv.den_le _ _ hmd, (env.lim md x).reduced, Or.inl ?_⟩
    unfold rootValue
    rw [Nat.cast_one, Real.sqrt_one, mul_one, ← Rat.cast_def]
    exact h1
  · simp only [Option.some.injEq, Prod.mk.injEq] at h
    obtain ⟨rfl, rfl, rfl⟩ := h
    have e : (1 : ℤ) * ((env.lim md x).num.natAbs : ℤ) = (env.lim md x).num := by omega
    rw [e]
    refine ⟨squarefree_one, Rat.den_pos _, henv.den_le _ _ hmd, (env.lim md x).reduced, Or.inl ?_⟩
    unfold rootValue
    rw [Nat.cast_one, Real.sqrt_one, mul_one, ← Rat.cast_def]
    exact h1
  all_goals
    have hq := henv.nonneg md (x * x) (mul_self_nonneg x)
    obtain ⟨r1, r2, r3, r4, r5⟩ := root_reduced _ hq
    simp only [Option.some.injEq, Prod.mk.injEq] at h
    obtain ⟨rfl, rfl, rfl⟩ := h
    refine ⟨r1, r2, r3.trans (henv.den_le _ _ hmd), ?_, Or.inr ?_⟩
  · rw [Int.natAbs_mul, Int.natAbs_natCast]; exact (one_mul (_ : ℕ)).symm ▸ r4
  · rw [rootValue_neg r5]
    have hs : 0 ≤ Real.sqrt (env.lim md (x * x)) := Real.sqrt_nonneg _
    refine ⟨?_, by nlinarith⟩
    rw [neg_mul_neg, Real.mul_self_sqrt (by exact_mod_cast hq)]
    exact h3
  · rw [Int.natAbs_mul, Int.natAbs_natCast]; exact (one_mul (_ : ℕ)).symm ▸ r4
  · rw [rootValue_pos r5]
    have hs : 0 ≤ Real.sqrt (env.lim md (x * x)) := Real.sqrt_nonneg _
    refine ⟨?_, by nlinarith⟩
    rw [Real.mul_self_sqrt (by exact_mod_cast hq)]
    exact h3

/-- **C71** With tolerance `atol` and `rtol = 0`, the error of a recognized number is at most `max(atol, sqrt(atol))`. -/
theorem C71_recognize_error (env : PpEnv) (henv : env.Valid) (x : ℝ) (md : ℕ) (hmd : 0 < md) (atol : ℝ) (ha : 0 ≤ atol) (s : ℤ) (i d : ℕ)
    (h : recognizeSqrt env x md atol 0 = some (s, i, d)) : |rootValue s i d - x| ≤ max atol (Real.sqrt atol) := by
  obtain ⟨-, -, -, -, h1 | ⟨h1, h2⟩⟩ := C71_recognize env henv x md hmd atol 0 s i d h
  · unfold Isclose at h1
    rw [zero_mul, max_eq_right ha, abs_sub_comm] at h1
    exact h1.trans (le_max_left _ _)
  · unfold Isclose at h1
    rw [zero_mul, max_eq_right ha] at h1
    refine le_max_of_le_right (Real.abs_le_sqrt ?_)
    generalize rootValue s i d = v at *
    have h3 : (v - x) ^ 2 ≤ |x * x - v * v| := by
      rcases le_total 0 (x * x - v * v) with h | h
      · rw [abs_of_nonneg h]
        rcases le_total 0 x with hx | hx
        · rcases le_total 0 v with hv | hv
          · nlinarith
          · nlinarith
        · rcases le_total 0 v with hv | hv
          · nlinarith
          · nlinarith
      · rw [abs_of_nonpos h]
        rcases le_total 0 x with hx | hx
        · rcases le_total 0 v with hv | hv
          · nlinarith
          · nlinarith
        · rcases le_total 0 v with hv | hv
          · nlinarith
          · nlinarith
    exact h3.trans h1

/-- **C71** With zero tolerances, a number is recognized exactly when it, or its square, is a fraction with a denominator at most
`max_denominator`; then the value is the number. -/
theorem C71_recognize_exact (env : PpEnv) (henv : env.Valid) (x : ℝ) (md : ℕ) (hmd : 0 < md) :
    ((recognizeSqrt env x md 0 0).isSome ↔ ∃ q : ℚ, q.den ≤ md ∧ (x = q ∨ x * x = q)) ∧
    ∀ s i d, recognizeSqrt env x md 0 0 = some (s, i, d) → rootValue s i d = x := by
  have hc : ∀ a b : ℝ, Isclose 0 0 a b ↔ a = b := by
    intro a b
    unfold Isclose
    rw [zero_mul, max_self, abs_nonpos_iff, sub_eq_zero]
  constructor
  · unfold recognizeSqrt
    simp only [hc]
    by_cases h1 : x = env.lim md x
    · rw [if_pos h1]
      simp only [Option.isSome_some, true_iff]
      exact ⟨_, henv.den_le md x hmd, Or.inl h1⟩
    · rw [if_neg h1]
      by_cases h2 : x * x = env.lim md (x * x)
      · rw [if_neg (not_not.2 h2)]
        simp only [Option.isSome_some, true_iff]
        exact ⟨_, henv.den_le md (x * x) hmd, Or.inr h2⟩
      · rw [if_pos h2]
        simp only [Option.isSome_none, Bool.false_eq_true, false_iff]
        rintro ⟨q, hq, h | h⟩
        · exact h1 (by rw [h, henv.exact md q hq])
        · exact h2 (by rw [h, henv.exact md q hq])
  · intro s i d h
    have := C71_recognize_error env henv x md hmd 0 le_rfl s i d h
    rw [Real.sqrt_zero, max_self, abs_nonpos_iff, sub_eq_zero] at this
    exact this

/-! ### Reading -/

theorem readSigned_sign (s : ℤ) (l rest : List PTok) (hl : l.head? ≠ some .neg) (hne : l ≠ []) :
    readSigned (signStr s ++ (l ++ rest)) = readFactors (if s < 0 then -1 else 1) (l ++ rest) := by
  unfold signStr
  split_ifs with h
  · rfl
  · cases l with
    | nil => exact absurd rfl hne
    | cons a l => cases a <;> first | rfl | exact absurd rfl hl

theorem sign_natAbs (s : ℤ) : (if s < 0 then (-1 : ℂ) else 1) * (s.natAbs : ℂ) = s := by
  split_ifs with h
  · have : ((s.natAbs : ℤ)) = -s := by omega
    have h2 : (s.natAbs : ℂ) = ((s.natAbs : ℤ) : ℂ) := by simp
    rw [h2, this]; push_cast; ring
  · have : ((s.natAbs : ℤ)) = s := by omega
    have h2 : (s.natAbs : ℂ) = ((s.natAbs : ℤ) : ℂ) := by simp
    rw [h2, this, one_mul]

theorem readFactors_sqrtStr (acc : ℂ) (i : ℕ) (rest : List PTok) :
    readFactors acc (sqrtStr i ++ rest) = readFactors (acc * (Real.sqrt i : ℝ)) rest := by
  unfold sqrtStr
  split_ifs with h
  · subst h; simp
  · rfl

theorem readFactors_den (acc : ℂ) (d : ℕ) (rest : List PTok) :
    readFactors acc ((if d = 1 then [] else [PTok.div, .nat d]) ++ rest) = readFactors (acc / d) rest := by
  split_ifs with h
  · subst h; simp
  · rfl

theorem read_renderReal (s : ℤ) (i d : ℕ) (rest : List PTok) :
    readSigned (renderReal s i d ++ rest) = readFactors ((rootValue s i d : ℝ) : ℂ) rest := by
  unfold renderReal rootValue
  by_cases h0 : s = 0
  · subst h0
    simp [readSigned, readFactors]
  · rw [if_neg h0]
    simp only
    set num := (if i = 1 then [PTok.nat s.natAbs] else if s.natAbs = 1 then sqrtStr i else .nat s.natAbs :: sqrtStr i) with hnum
    have e : (if d = 1 then signStr s ++ num else signStr s ++ num ++ [.div, .nat d]) ++ rest =
        signStr s ++ (num ++ ((if d = 1 then [] else [PTok.div, .nat d]) ++ rest)) := by
      split_ifs <;> simp
    have hn : ∀ acc rest', readFactors acc (num ++ rest') = readFactors (acc * s.natAbs * (Real.sqrt i : ℝ)) rest' := by
      intro acc rest'
      rw [hnum]
      split_ifs with h1 h2
      · subst h1; simp [readFactors]
      · rw [readFactors_sqrtStr, h2]; simp
      · rw [List.cons_append]
        change readFactors (acc * s.natAbs) _ = _
        rw [readFactors_sqrtStr]
    have hh : num.head? ≠ some .neg ∧ num ≠ [] := by
      rw [hnum]; unfold sqrtStr
      split_ifs <;> simp
    rw [e, readSigned_sign s num _ hh.1 hh.2, hn, readFactors_den, sign_natAbs]
    push_cast
    rfl

theorem read_renderImaginary (s : ℤ) (i d : ℕ) (rest : List PTok) :
    readSigned (renderImaginary s i d ++ rest) = readFactors (((rootValue s i d : ℝ) : ℂ) * Complex.I) rest := by
  unfold renderImaginary rootValue
  simp only
  set num := ((if s.natAbs = 1 then [] else [PTok.nat s.natAbs]) ++ [.imag] ++ sqrtStr i) with hnum
  have e : (if d = 1 then signStr s ++ num else signStr s ++ num ++ [.div, .nat d]) ++ rest =
      signStr s ++ (num ++ ((if d = 1 then [] else [PTok.div, .nat d]) ++ rest)) := by
    split_ifs <;> simp
  have hn : ∀ acc rest', readFactors acc (num ++ rest') = readFactors (acc * s.natAbs * Complex.I * (Real.sqrt i : ℝ)) rest' := by
    intro acc rest'
    rw [hnum]
    split_ifs with h1
    · rw [h1]
      simp only [List.nil_append, List.append_assoc]
      rw [show [PTok.imag] ++ (sqrtStr i ++ rest') = PTok.imag :: (sqrtStr i ++ rest') from rfl, readFactors, readFactors_sqrtStr]
      simp
    · simp only [List.append_assoc]
      rw [show [PTok.nat s.natAbs] ++ ([PTok.imag] ++ (sqrtStr i ++ rest')) = PTok.nat s.natAbs :: PTok.imag :: (sqrtStr i ++ rest') from rfl,
        readFactors, readFactors, readFactors_sqrtStr]
  have hh : num.head? ≠ some .neg ∧ num ≠ [] := by
    rw [hnum]
    split_ifs <;> simp
  rw [e, readSigned_sign s num _ hh.1 hh.2, hn, readFactors_den, sign_natAbs]
  push_cast
  congr 1
  ring

theorem read_decToks (v : ℝ) (rest : List PTok) : readSigned (decToks v ++ rest) = readFactors v rest := by
  unfold decToks
  split_ifs with h
  · change readFactors (-1 * ((-v : ℝ) : ℂ)) rest = _
    congr 1; push_cast; ring
  · change readFactors (1 * (v : ℂ)) rest = _
    rw [one_mul]

theorem read_angle (env : PpEnv) (henv : env.Valid) (q : ℚ) (hq : 0 ≤ q) (hd : q.den ≤ 1000) (acc : ℂ) (rest : List PTok) :
    readFactors acc (angleToStr env q ++ rest) = readFactors (acc * ((q : ℝ) * Real.pi : ℝ)) rest := by
  unfold angleToStr
  rw [henv.exact 1000 q hd]
  rw [if_neg (not_not.2 (isclose_self le_rfl _))]
  have hn : ¬ q.num < 0 := not_lt.2 (Rat.num_nonneg.2 hq)
  have hnum : (q.num.natAbs : ℤ) = q.num := by have := Rat.num_nonneg.2 hq; omega
  have hnum' : ((q.num.natAbs : ℕ) : ℂ) = (q.num : ℂ) := by
    have : ((q.num.natAbs : ℕ) : ℂ) = ((q.num.natAbs : ℤ) : ℂ) := by simp
    rw [this, hnum]
  have hval : ((q : ℝ) : ℂ) = (q.num.natAbs : ℂ) / q.den := by
    rw [hnum']; push_cast; exact Rat.cast_def q
  simp only [signStr, if_neg hn, List.nil_append]
  push_cast
  rw [Complex.ofReal_ratCast] at hval
  rw [hval]
  by_cases hden : q.den = 1
  · rw [if_pos hden, hden]
    generalize q.num.natAbs = k
    match k with
    | 0 => simp [readFactors]
    | 1 => simp [readFactors]
    | k + 2 =>
      change readFactors (acc * ((k + 2 : ℕ) : ℂ) * Real.pi) rest = _
      congr 1; push_cast; ring
  · rw [if_neg hden]
    by_cases h1 : q.num.natAbs = 1
    · rw [if_pos h1, h1]
      change readFactors (acc * Real.pi / q.den) rest = _
      congr 1; push_cast; ring
    · rw [if_neg h1]
      change readFactors (acc * q.num.natAbs * Real.pi / q.den) rest = _
      congr 1; push_cast; ring

theorem readNumber_of_signed {l : List PTok} {a : ℂ} (hne : l ≠ []) (h : readSigned l = (a, [])) : readNumber l = some a := by
  unfold readNumber readTerm
  rw [if_neg hne, h]

theorem renderReal_ne (s : ℤ) (i d : ℕ) : renderReal s i d ≠ [] := by
  unfold renderReal sqrtStr
  simp only
  split_ifs <;> simp

theorem renderImaginary_ne (s : ℤ) (i d : ℕ) : renderImaginary s i d ≠ [] := by
  unfold renderImaginary
  simp only
  split_ifs <;> simp

theorem decToks_ne (v : ℝ) : decToks v ≠ [] := by unfold decToks; split_ifs <;> simp

/-- The value of a recognized number is read. -/
theorem read_real {env : PpEnv} {x : ℝ} {md : ℕ} {atol rtol : ℝ} {l : List PTok} (h : realToStr env x md atol rtol = some l) :
    ∃ s i d, recognizeSqrt env x md atol rtol = some (s, i, d) ∧ l ≠ [] ∧
      ∀ rest, readSigned (l ++ rest) = readFactors ((rootValue s i d : ℝ) : ℂ) rest := by
  unfold realToStr at h
  rw [Option.map_eq_some_iff] at h
  obtain ⟨⟨s, i, d⟩, h1, rfl⟩ := h
  exact ⟨s, i, d, h1, renderReal_ne _ _ _, read_renderReal s i d⟩

theorem read_imaginary {env : PpEnv} {x : ℝ} {md : ℕ} {atol rtol : ℝ} {l : List PTok} (h : imaginaryToStr env x md atol rtol = some l) :
    ∃ s i d, recognizeSqrt env x md atol rtol = some (s, i, d) ∧ readNumber l = some ((rootValue s i d : ℝ) * Complex.I) := by
  unfold imaginaryToStr at h
  rw [Option.map_eq_some_iff] at h
  obtain ⟨⟨s, i, d⟩, h1, rfl⟩ := h
  refine ⟨s, i, d, h1, readNumber_of_signed (renderImaginary_ne _ _ _) ?_⟩
  have := read_renderImaginary s i d []
  rw [List.append_nil] at this
  rw [this]
  rfl

theorem readNumber_of_term {l : List PTok} {a : ℂ} (h : readTerm l = some (a, [])) : readNumber l = some a := by
  unfold readNumber
  rw [h]

/-- The printed exponential. -/
theorem read_exponential {env : PpEnv} (henv : env.Valid) {z : ℂ} {md : ℕ} (hmd : 0 < md) (hmd' : md ≤ 1000) {atol rtol : ℝ} {l : List PTok}
    (h : exponentialToStr env z md atol rtol = some l) :
    ∃ (q : ℚ) (s : ℤ) (i d : ℕ), Isclose rtol atol (z.arg / Real.pi) q ∧ recognizeSqrt env ‖z‖ md atol rtol = some (s, i, d) ∧
      readTerm l = some ((rootValue s i d : ℝ) * Complex.exp ((q * Real.pi : ℝ) * Complex.I), []) := by
  unfold exponentialToStr at h
  cases ha : recognizeAngle env z.arg md atol rtol with
  | none => rw [ha] at h; cases h
  | some q =>
    rw [ha] at h
    simp only at h
    by_cases h0 : q = 0
    · rw [if_pos h0] at h; cases h
    rw [if_neg h0] at h
    cases hr : realToStr env ‖z‖ md atol rtol with
    | none => rw [hr] at h; cases h
    | some radius =>
      rw [hr] at h
      dsimp only at h
      obtain ⟨s, i, d, r1, r2, r3⟩ := read_real hr
      unfold recognizeAngle at ha
      simp only at ha
      split_ifs at ha with hc
      have hq : env.lim md (z.arg / Real.pi) = q := by simpa using ha
      have hden : q.den ≤ 1000 := by rw [← hq]; exact (henv.den_le md _ hmd).trans hmd'
      have habs : (|q|).den ≤ 1000 := by
        rcases abs_choice q with h' | h' <;> rw [h']
        · exact hden
        · rw [Rat.neg_den]; exact hden
      refine ⟨q, s, i, d, hq ▸ hc, r1, ?_⟩
      generalize hsign : (if q < 0 then [PTok.neg] else []) = sign at h
      set body := PTok.expo :: sign ++ [.imag, .times] ++ angleToStr env ((|q| : ℚ) : ℝ) ++ [.rpar] with hbody
      have hinner : readSigned (sign ++ [.imag, .times] ++ angleToStr env ((|q| : ℚ) : ℝ) ++ [.rpar]) =
          (((q * Real.pi : ℝ) : ℂ) * Complex.I, [.rpar]) := by
        rw [← hsign]
        have key : ∀ acc, readFactors acc (angleToStr env ((|q| : ℚ) : ℝ) ++ [.rpar]) = (acc * (((|q| : ℚ) : ℝ) * Real.pi : ℝ), [.rpar]) := by
          intro acc
          rw [read_angle env henv _ (abs_nonneg q) habs]
          rfl
        split_ifs with hneg
        · change readFactors (-1 * Complex.I) (angleToStr env ((|q| : ℚ) : ℝ) ++ [.rpar]) = _
          rw [key, abs_of_neg hneg]
          congr 1
          push_cast
          ring
        · change readFactors (1 * Complex.I) (angleToStr env ((|q| : ℚ) : ℝ) ++ [.rpar]) = _
          rw [key, abs_of_nonneg (not_lt.1 hneg)]
          congr 1
          push_cast
          ring
      have hterm : ∀ pre a, readSigned (pre ++ body) = (a, body) → readTerm (pre ++ body) = some (a * Complex.exp (((q * Real.pi : ℝ) : ℂ) * Complex.I), []) := by
        intro pre a hpre
        unfold readTerm
        rw [if_neg (by rw [hbody]; simp), hpre]
        have hb : body = .expo :: (sign ++ [.imag, .times] ++ angleToStr env ((|q| : ℚ) : ℝ) ++ [.rpar]) := by rw [hbody]; simp
        rw [hb]
        dsimp only
        rw [hinner]
      split_ifs at h with h1
      · obtain rfl : body = l := Option.some.inj h
        have hv : ((rootValue s i d : ℝ) : ℂ) = 1 := by
          have := r3 []
          rw [h1] at this
          change (((1 : ℂ) * ((1 : ℕ) : ℂ)), ([] : List PTok)) = (((rootValue s i d : ℝ) : ℂ), []) at this
          have := (Prod.mk.injEq _ _ _ _ ▸ this : _ ∧ _).1
          rw [← this]; simp
        rw [hv]
        exact hterm [] 1 rfl
      · obtain rfl : radius ++ [.times] ++ body = l := Option.some.inj h
        have := hterm (radius ++ [.times]) ((rootValue s i d : ℝ) : ℂ) (by
          rw [List.append_assoc, r3]
          rfl)
        exact this

theorem exp_error (a b : ℝ) : ‖Complex.exp (a * Complex.I) - Complex.exp (b * Complex.I)‖ ≤ |a - b| := by
  have e : Complex.exp (a * Complex.I) - Complex.exp (b * Complex.I) =
      Complex.exp (b * Complex.I) * (Complex.exp (Complex.I * ((a - b : ℝ) : ℂ)) - 1) := by
    rw [mul_sub, ← Complex.exp_add, mul_one]
    congr 2
    push_cast; ring
  rw [e, norm_mul, Complex.norm_exp_ofReal_mul_I, one_mul]
  have := Real.norm_exp_I_mul_ofReal_sub_one_le (x := a - b)
  rwa [Real.norm_eq_abs] at this

theorem polar_error (r t : ℝ) (z : ℂ) : ‖(r : ℂ) * Complex.exp (t * Complex.I) - z‖ ≤ |r - ‖z‖| + ‖z‖ * |t - z.arg| := by
  have e : (r : ℂ) * Complex.exp (t * Complex.I) - z =
      ((r - ‖z‖ : ℝ) : ℂ) * Complex.exp (t * Complex.I) + (‖z‖ : ℂ) * (Complex.exp (t * Complex.I) - Complex.exp (z.arg * Complex.I)) := by
    conv_lhs => rw [← Complex.norm_mul_exp_arg_mul_I z]
    push_cast; ring
  rw [e]
  refine (norm_add_le _ _).trans (add_le_add ?_ ?_)
  · rw [norm_mul, Complex.norm_exp_ofReal_mul_I, mul_one, Complex.norm_real, Real.norm_eq_abs]
  · rw [norm_mul, Complex.norm_real, Real.norm_eq_abs, abs_norm]
    exact mul_le_mul_of_nonneg_left (exp_error _ _) (norm_nonneg _)

theorem norm_le_parts (z : ℂ) : ‖z‖ ≤ |z.re| + |z.im| := Complex.norm_le_abs_re_add_abs_im z

/-- What is proved of a text: it reads as a number that is close to `z`; if it is a decimal, one of the parts of `z` is not recognized. -/
def PrintedClose (env : PpEnv) (z : ℂ) (md : ℕ) (atol u : ℝ) (l : List PTok) : Prop :=
  ∃ w, readNumber l = some w ∧
    (‖w - z‖ ≤ 2 * max atol (Real.sqrt atol) + Real.pi * atol * ‖z‖ ∨
      (‖w - z‖ ≤ atol + u * ‖z‖ ∧ (recognizeSqrt env z.re md atol 0 = none ∨ recognizeSqrt env z.im md atol 0 = none)))

theorem decimal_parts {env : PpEnv} {z : ℂ} {atol : ℝ} (ha : 0 ≤ atol) {p : ℕ} {u : ℝ} (hu : env.Rounds p u) (hu0 : 0 ≤ u) :
    ‖(env.fmt p z.re : ℂ) + (env.fmt p z.im : ℂ) * Complex.I - z‖ ≤ atol + u * ‖z‖ := by
  have h : ‖(env.fmt p z.re : ℂ) + (env.fmt p z.im : ℂ) * Complex.I - z‖ ≤ u * ‖z‖ := by
    rw [Complex.norm_eq_sqrt_sq_add_sq, Complex.norm_eq_sqrt_sq_add_sq z]
    simp only [Complex.sub_re, Complex.sub_im, Complex.add_re, Complex.add_im, Complex.mul_re, Complex.mul_im, Complex.ofReal_re, Complex.ofReal_im,
      Complex.I_re, Complex.I_im, mul_zero, mul_one, zero_mul, sub_zero, add_zero, zero_add]
    have h1 := sq_le_sq' (by have := abs_nonneg (env.fmt p z.re - z.re); have := hu z.re; linarith) (hu z.re)
    have h2 := sq_le_sq' (by have := abs_nonneg (env.fmt p z.im - z.im); have := hu z.im; linarith) (hu z.im)
    rw [sq_abs, mul_pow, sq_abs] at h1 h2
    calc Real.sqrt _ ≤ Real.sqrt (u ^ 2 * (z.re ^ 2 + z.im ^ 2)) := Real.sqrt_le_sqrt (by linarith)
      _ = u * Real.sqrt (z.re ^ 2 + z.im ^ 2) := by rw [Real.sqrt_mul (sq_nonneg u), Real.sqrt_sq hu0]
  linarith

theorem decimal_close {env : PpEnv} {z : ℂ} {atol : ℝ} (ha : 0 ≤ atol) {p : ℕ} {u : ℝ} (hu : env.Rounds p u) :
    ∃ w, readNumber (decimalToStr env z p atol) = some w ∧ ‖w - z‖ ≤ atol + u * ‖z‖ := by
  have hu0 : 0 ≤ u := by have := hu 1; rw [abs_one, mul_one] at this; exact (abs_nonneg _).trans this
  unfold decimalToStr
  split_ifs with h1 h2 h3
  · refine ⟨(env.fmt p z.re : ℝ), readNumber_of_signed (decToks_ne _) (by have := read_decToks (env.fmt p z.re) []; rwa [List.append_nil] at this), ?_⟩
    refine (norm_le_parts _).trans ?_
    rw [Complex.sub_re, Complex.sub_im, Complex.ofReal_re, Complex.ofReal_im, zero_sub, abs_neg, add_comm]
    refine add_le_add h1 ((hu _).trans (mul_le_mul_of_nonneg_left (Complex.abs_re_le_norm z) hu0))
  · refine ⟨(env.fmt p z.im : ℝ) * Complex.I, readNumber_of_signed (by simp) (by rw [read_decToks]; rfl), ?_⟩
    refine (norm_le_parts _).trans ?_
    simp only [Complex.sub_re, Complex.sub_im, Complex.mul_re, Complex.mul_im, Complex.ofReal_re, Complex.ofReal_im, Complex.I_re, Complex.I_im,
      mul_zero, mul_one, zero_mul, sub_zero, add_zero, zero_sub, abs_neg]
    exact add_le_add h2 ((hu _).trans (mul_le_mul_of_nonneg_left (Complex.abs_im_le_norm z) hu0))
  all_goals
    refine ⟨(env.fmt p z.re : ℝ) + (env.fmt p z.im : ℝ) * Complex.I, ?_, ?_⟩
  · have : readTerm (decToks (env.fmt p z.re) ++ [.neg, .dec (-env.fmt p z.im)] ++ [.imag]) =
        some ((env.fmt p z.re : ℂ), [.neg, .dec (-env.fmt p z.im), .imag]) := by
      unfold readTerm
      rw [if_neg (by simp), List.append_assoc, read_decToks]
      rfl
    unfold readNumber
    rw [this]
    simp [readTerm, readSigned, readFactors]
  · exact decimal_parts ha hu hu0
  · have : readTerm (decToks (env.fmt p z.re) ++ [.pos, .dec (env.fmt p z.im)] ++ [.imag]) =
        some ((env.fmt p z.re : ℂ), [.pos, .dec (env.fmt p z.im), .imag]) := by
      unfold readTerm
      rw [if_neg (by simp), List.append_assoc, read_decToks]
      rfl
    unfold readNumber
    rw [this]
    simp [readTerm, readSigned, readFactors]
  · exact decimal_parts ha hu hu0

theorem cartesian_close {env : PpEnv} (henv : env.Valid) {re im : ℝ} {md : ℕ} (hmd : 0 < md) {atol : ℝ} (ha : 0 ≤ atol) {l : List PTok}
    (h : cartesianToStr env re im md atol 0 = some l) :
    ∃ w, readNumber l = some w ∧ |w.re - re| ≤ max atol (Real.sqrt atol) ∧ |w.im - im| ≤ max atol (Real.sqrt atol) := by
  unfold cartesianToStr at h
  cases hr : realToStr env re md atol 0 with
  | none => rw [hr] at h; cases h
  | some reStr =>
    cases hi : recognizeSqrt env im md atol 0 with
    | none => rw [hr, hi] at h; cases h
    | some r =>
      obtain ⟨s, i, d⟩ := r
      rw [hr, hi] at h
      dsimp only at h
      obtain ⟨s1, i1, d1, r1, r2, r3⟩ := read_real hr
      have e1 := C71_recognize_error env henv re md hmd atol ha _ _ _ r1
      have e2 := C71_recognize_error env henv im md hmd atol ha _ _ _ hi
      refine ⟨(rootValue s1 i1 d1 : ℝ) + (rootValue s i d : ℝ) * Complex.I, ?_, by simpa using e1, by simpa using e2⟩
      set imag := (if s.natAbs = 1 ∧ i = 1 ∧ d = 1 then [PTok.imag] else renderReal |s| i d ++ [.imag]) with himag
      have hi2 : readTerm imag = some ((rootValue |s| i d : ℝ) * Complex.I, []) := by
        rw [himag]
        split_ifs with hc
        · obtain ⟨h1, rfl, rfl⟩ := hc
          have h2 : |s| = 1 := by rw [Int.abs_eq_natAbs, h1]; rfl
          rw [h2]
          simp [readTerm, readSigned, readFactors, rootValue]
        · unfold readTerm
          rw [if_neg (by simp), read_renderReal]
          rfl
      have hre : ∀ c rest, (c = .add ∨ c = .sub) → readTerm (reStr ++ [c] ++ rest) = some (((rootValue s1 i1 d1 : ℝ) : ℂ), c :: rest) := by
        intro c rest hc
        unfold readTerm
        rw [if_neg (by simp), List.append_assoc, r3]
        rcases hc with rfl | rfl <;> rfl
      by_cases hneg : s < 0
      · rw [if_pos hneg] at h
        obtain rfl := Option.some.inj h
        unfold readNumber
        rw [hre _ _ (Or.inr rfl)]
        dsimp only
        rw [hi2]
        dsimp only
        congr 1
        rw [abs_of_neg hneg]
        unfold rootValue
        push_cast
        ring
      · rw [if_neg hneg] at h
        obtain rfl := Option.some.inj h
        unfold readNumber
        rw [hre _ _ (Or.inl rfl)]
        dsimp only
        rw [hi2]
        dsimp only
        congr 1
        rw [abs_of_nonneg (not_lt.1 hneg)]

/-- **C71** `complex_to_str(z)`, with `rtol = 0`, for every number: the text reads as a number close to `z`. -/
theorem C71_complex_to_str (env : PpEnv) (henv : env.Valid) (md : ℕ) (hmd : 0 < md) (hmd' : md ≤ 1000) (atol : ℝ) (ha : 0 ≤ atol) (p : ℕ) (u : ℝ)
    (hu : env.Rounds p u) (z : ℂ) : PrintedClose env z md atol u (complexToStr env z md atol 0 p) := by
  have hE : 0 ≤ max atol (Real.sqrt atol) := le_max_of_le_left ha
  have hpi : 0 ≤ Real.pi * atol * ‖z‖ := by have := Real.pi_pos; positivity
  have hexp : ∀ e, exponentialToStr env z md atol 0 = some e → PrintedClose env z md atol u e := by
    intro e he
    obtain ⟨q, s, i, d, h1, h2, h3⟩ := read_exponential henv hmd hmd' he
    refine ⟨_, readNumber_of_term h3, Or.inl ?_⟩
    have e1 := C71_recognize_error env henv _ md hmd atol ha _ _ _ h2
    have e2 := polar_error (rootValue s i d) (q * Real.pi) z
    unfold Isclose at h1
    rw [zero_mul, max_eq_right ha] at h1
    have e3 : |(q : ℝ) * Real.pi - z.arg| ≤ Real.pi * atol := by
      have : (q : ℝ) * Real.pi - z.arg = -(z.arg / Real.pi - q) * Real.pi := by field_simp; ring
      rw [this, abs_mul, abs_neg, abs_of_pos Real.pi_pos, mul_comm]
      exact mul_le_mul_of_nonneg_left h1 Real.pi_pos.le
    have e4 := mul_le_mul_of_nonneg_left e3 (norm_nonneg z)
    linarith
  unfold complexToStr
  split_ifs with h1 h2 h3
  · refine ⟨0, by simp [readNumber, readTerm, readSigned, readFactors], Or.inl ?_⟩
    rw [zero_sub, norm_neg]
    have := norm_le_parts z
    have := le_max_left atol (Real.sqrt atol)
    linarith [h1.1, h1.2]
  · cases hr : realToStr env z.re md atol 0 with
    | none =>
      obtain ⟨w, d1, d2⟩ := decimal_close (z := z) ha hu
      refine ⟨w, d1, Or.inr ⟨d2, Or.inl ?_⟩⟩
      unfold realToStr at hr
      exact Option.map_eq_none_iff.1 hr
    | some l =>
      obtain ⟨s, i, d, r1, r2, r3⟩ := read_real hr
      refine ⟨(rootValue s i d : ℝ), readNumber_of_signed r2 (by have := r3 []; rwa [List.append_nil] at this), Or.inl ?_⟩
      have e1 := C71_recognize_error env henv _ md hmd atol ha _ _ _ r1
      refine (norm_le_parts _).trans ?_
      rw [Complex.sub_re, Complex.sub_im, Complex.ofReal_re, Complex.ofReal_im, zero_sub, abs_neg]
      have := le_max_left atol (Real.sqrt atol)
      linarith
  · cases hr : imaginaryToStr env z.im md atol 0 with
    | none =>
      obtain ⟨w, d1, d2⟩ := decimal_close (z := z) ha hu
      refine ⟨w, d1, Or.inr ⟨d2, Or.inr ?_⟩⟩
      unfold imaginaryToStr at hr
      exact Option.map_eq_none_iff.1 hr
    | some l =>
      obtain ⟨s, i, d, r1, r2⟩ := read_imaginary hr
      refine ⟨_, r2, Or.inl ?_⟩
      have e1 := C71_recognize_error env henv _ md hmd atol ha _ _ _ r1
      refine (norm_le_parts _).trans ?_
      simp only [Complex.sub_re, Complex.sub_im, Complex.mul_re, Complex.mul_im, Complex.ofReal_re, Complex.ofReal_im, Complex.I_re, Complex.I_im,
        mul_zero, mul_one, zero_mul, sub_zero, add_zero, zero_sub, abs_neg]
      have := le_max_left atol (Real.sqrt atol)
      linarith
  · have hcart : ∀ c, cartesianToStr env z.re z.im md atol 0 = some c → PrintedClose env z md atol u c := by
      intro c hc
      obtain ⟨w, w1, w2, w3⟩ := cartesian_close henv hmd ha hc
      refine ⟨w, w1, Or.inl ?_⟩
      refine (norm_le_parts _).trans ?_
      rw [Complex.sub_re, Complex.sub_im]
      linarith
    have hdec : cartesianToStr env z.re z.im md atol 0 = none → PrintedClose env z md atol u (decimalToStr env z p atol) := by
      intro hc
      obtain ⟨w, d1, d2⟩ := decimal_close (z := z) ha hu
      refine ⟨w, d1, Or.inr ⟨d2, ?_⟩⟩
      cases hr : recognizeSqrt env z.re md atol 0 with
      | none => exact Or.inl rfl
      | some r =>
        cases hi : recognizeSqrt env z.im md atol 0 with
        | none => exact Or.inr rfl
        | some r' =>
          unfold cartesianToStr realToStr at hc
          rw [hr, hi] at hc
          simp at hc
    dsimp only
    cases he : exponentialToStr env z md atol 0 with
    | none =>
      dsimp only
      cases hc : cartesianToStr env z.re z.im md atol 0 with
      | none => exact hdec hc
      | some c => exact hcart c hc
    | some e =>
      cases decide (Isclose 0 atol ‖z‖ 1) with
      | true => exact hexp e he
      | false =>
        dsimp only
        cases hc : cartesianToStr env z.re z.im md atol 0 with
        | none => exact hexp e he
        | some c => exact hcart c hc

/-- **C71** With zero tolerances, a number whose two parts are fractions, or square roots of fractions, with denominators at most
`max_denominator`, is printed exactly. -/
theorem C71_complex_exact (env : PpEnv) (henv : env.Valid) (md : ℕ) (hmd : 0 < md) (hmd' : md ≤ 1000) (p : ℕ) (u : ℝ) (hu : env.Rounds p u) (z : ℂ)
    (hre : ∃ q : ℚ, q.den ≤ md ∧ (z.re = q ∨ z.re * z.re = q)) (him : ∃ q : ℚ, q.den ≤ md ∧ (z.im = q ∨ z.im * z.im = q)) :
    readNumber (complexToStr env z md 0 0 p) = some z := by
  obtain ⟨w, w1, w2⟩ := C71_complex_to_str env henv md hmd hmd' 0 le_rfl p u hu z
  have h1 := (C71_recognize_exact env henv z.re md hmd).1.2 hre
  have h2 := (C71_recognize_exact env henv z.im md hmd).1.2 him
  rcases w2 with h | ⟨-, h | h⟩
  · rw [Real.sqrt_zero, max_self, mul_zero, mul_zero, zero_mul, add_zero] at h
    have := norm_le_zero_iff.1 h
    rw [w1, sub_eq_zero.1 this]
  · rw [h] at h1; cases h1
  · rw [h] at h2; cases h2

/-! ### The square root loses half of the digits -/

/-- A library that satisfies the assumptions: the fraction is the number when its denominator is small, and zero otherwise. -/
noncomputable def exPp : PpEnv where
  lim m x := if h : ∃ q : ℚ, q.den ≤ m ∧ x = q then h.choose else 0
  fmt _ x := x

theorem exPp_valid : exPp.Valid := by
  refine ⟨fun m x hm => ?_, fun m q hq => ?_, fun m x hx => ?_⟩
  · unfold exPp; dsimp only
    split_ifs with h
    · exact h.choose_spec.1
    · exact hm
  · have h : ∃ q' : ℚ, q'.den ≤ m ∧ (q : ℝ) = q' := ⟨q, hq, rfl⟩
    unfold exPp; dsimp only
    rw [dif_pos h]
    exact_mod_cast h.choose_spec.2.symm
  · unfold exPp; dsimp only
    split_ifs with h
    · have := h.choose_spec.2
      have h2 : (0 : ℝ) ≤ (h.choose : ℝ) := this ▸ hx
      exact_mod_cast h2
    · exact le_rfl

theorem exPp_rounds (p : ℕ) : exPp.Rounds p 0 := fun x => by simp [exPp]

/-- **C71, failure.** The error can be much larger than the tolerance: with the default tolerance `1e-9` and the default maximal denominator, `2e-5` is
printed as `0`, because its square is within `1e-9` of zero. -/
theorem C71_small_is_zero (p : ℕ) : complexToStr exPp (2 / 100000 : ℝ) 1000 (1 / 10 ^ 9) 0 p = [.nat 0] := by
  have hno : ∀ x : ℝ, 0 < x → x < 1 / 1000 → exPp.lim 1000 x = 0 := by
    intro x h0 h1
    unfold exPp; dsimp only
    rw [dif_neg]
    rintro ⟨q, hq, rfl⟩
    have hq0 : 0 < q := by exact_mod_cast h0
    have hn : 1 ≤ q.num := Rat.num_pos.2 hq0
    have hd : (0 : ℝ) < q.den := by exact_mod_cast q.den_pos
    rw [Rat.cast_def, div_lt_div_iff₀ hd (by norm_num)] at h1
    have h2 : (q.den : ℝ) ≤ 1000 := by exact_mod_cast hq
    have h3 : (1 : ℝ) ≤ q.num := by exact_mod_cast hn
    linarith
  have hrec : recognizeSqrt exPp (2 / 100000) 1000 (1 / 10 ^ 9) 0 = some (0, 1, 1) := by
    unfold recognizeSqrt
    rw [hno _ (by norm_num) (by norm_num), hno _ (by norm_num) (by norm_num)]
    have h1 : ¬ Isclose 0 (1 / 10 ^ 9) (2 / 100000) ((0 : ℚ) : ℝ) := by
      unfold Isclose
      rw [Rat.cast_zero, sub_zero, zero_mul, max_eq_right (by norm_num), abs_of_pos (by norm_num)]
      norm_num
    have h2 : Isclose 0 (1 / 10 ^ 9) (2 / 100000 * (2 / 100000)) ((0 : ℚ) : ℝ) := by
      unfold Isclose
      rw [Rat.cast_zero, sub_zero, zero_mul, max_eq_right (by norm_num), abs_of_pos (by norm_num)]
      norm_num
    simp only
    rw [if_neg h1, if_neg (not_not.2 h2), if_neg (by norm_num)]
    have e0 : squarefreeDecomposition 0 = (0, 1) := rfl
    have e1 : squarefreeDecomposition 1 = (1, 1) := by decide +kernel
    simp [e0, e1]
  unfold complexToStr
  simp only [Complex.ofReal_re, Complex.ofReal_im, abs_zero]
  rw [if_neg, if_pos (by norm_num)]
  · unfold realToStr
    rw [hrec]
    rfl
  · rintro ⟨h, -⟩
    rw [abs_of_pos (by norm_num)] at h
    norm_num at h

/-- The default parameters are covered. -/
example (z : ℂ) : PrintedClose exPp z 1000 (1 / 10 ^ 9) 0 (complexToStr exPp z 1000 (1 / 10 ^ 9) 0 4) :=
  C71_complex_to_str exPp exPp_valid 1000 (by norm_num) le_rfl _ (by positivity) 4 0 (exPp_rounds 4) z

/-- `1/2 - 1/2 i` is printed exactly. -/
example : readNumber (complexToStr exPp ⟨1 / 2, -1 / 2⟩ 1000 0 0 4) = some ⟨1 / 2, -1 / 2⟩ :=
  C71_complex_exact exPp exPp_valid 1000 (by norm_num) le_rfl 4 0 (exPp_rounds 4) _
    ⟨1 / 2, by decide +kernel, Or.inl (by push_cast; norm_num)⟩ ⟨-1 / 2, by decide +kernel, Or.inl (by push_cast; norm_num)⟩

end Graphix
