import Verif.Spec.PrintedText
import Verif.Props.PrintDensity

/-!
# C71, C72, C80: the characters of printed numbers and states
-/

namespace Graphix

/-! ### Texts that can be split -/

/-- A decimal token is a number that `fmt` writes; a ket does not contain `>`. -/
def tokLit (env : PpEnv) : PTok → Prop
  | .dec x => ∃ p y, x = |env.fmt p y|
  | .ket s => '>' ∉ s
  | _ => True

/-- Two numbers do not touch; a natural number comes after `/`. -/
def pairOk : PTok → Option PTok → Prop
  | .nat _, some (.nat _) => False
  | .nat _, some (.dec _) => False
  | .dec _, some (.nat _) => False
  | .dec _, some (.dec _) => False
  | .div, some (.nat _) => True
  | .div, _ => False
  | _, _ => True

/-- The texts of tokens that can be split. -/
def LexOk (env : PpEnv) : List PTok → Prop
  | [] => True
  | t :: l => tokLit env t ∧ pairOk t l.head? ∧ LexOk env l

/-- A token that is not a number. -/
def notNumTok : PTok → Bool
  | .nat _ => false
  | .dec _ => false
  | _ => true

theorem LexOk.append {env : PpEnv} {a b : List PTok} {t : PTok} (ha : LexOk env a) (hb : LexOk env (t :: b)) (ht : notNumTok t = true) :
    LexOk env (a ++ t :: b) := by
  induction a with
  | nil => exact hb
  | cons x a ih =>
    refine ⟨ha.1, ?_, ih ha.2.2⟩
    cases a with
    | nil =>
      have h := ha.2.1
      cases x <;> cases t <;> first | trivial | exact absurd h id | cases ht
    | cons y a => exact ha.2.1

theorem lexOk_renderReal (env : PpEnv) (s : ℤ) (i d : ℕ) : LexOk env (renderReal s i d) := by
  unfold renderReal sqrtStr signStr
  simp only
  split_ifs <;> simp [LexOk, tokLit, pairOk]

theorem lexOk_renderImaginary (env : PpEnv) (s : ℤ) (i d : ℕ) : LexOk env (renderImaginary s i d) := by
  unfold renderImaginary sqrtStr signStr
  simp only
  split_ifs <;> simp [LexOk, tokLit, pairOk]

theorem lexOk_decToks (env : PpEnv) (p : ℕ) (x : ℝ) : LexOk env (decToks (env.fmt p x)) := by
  unfold decToks
  split_ifs with h
  · exact ⟨trivial, trivial, ⟨p, x, (abs_of_neg h).symm⟩, trivial, trivial⟩
  · exact ⟨⟨p, x, (abs_of_nonneg (not_lt.1 h)).symm⟩, trivial, trivial⟩

theorem lexOk_real {env : PpEnv} {x : ℝ} {md : ℕ} {atol rtol : ℝ} {l : List PTok} (h : realToStr env x md atol rtol = some l) : LexOk env l := by
  unfold realToStr at h
  rw [Option.map_eq_some_iff] at h
  obtain ⟨⟨s, i, d⟩, -, rfl⟩ := h
  exact lexOk_renderReal _ _ _ _

theorem lexOk_angle (env : PpEnv) (henv : env.Valid) (q : ℚ) (hd : q.den ≤ 1000) : LexOk env (angleToStr env q) := by
  unfold angleToStr
  rw [henv.exact 1000 q hd, if_neg (not_not.2 (isclose_self le_rfl _))]
  unfold signStr
  simp only
  split_ifs <;> first | (simp [LexOk, tokLit, pairOk]; done) | (split <;> simp [LexOk, tokLit, pairOk])

theorem lexOk_exponential {env : PpEnv} (henv : env.Valid) {z : ℂ} {md : ℕ} (hmd : 0 < md) (hmd' : md ≤ 1000) {atol rtol : ℝ} {l : List PTok}
    (h : exponentialToStr env z md atol rtol = some l) : LexOk env l := by
  unfold exponentialToStr at h
  cases ha : recognizeAngle env z.arg md atol rtol with
  | none => rw [ha] at h; cases h
  | some q =>
    have hq : q.den ≤ 1000 := by
      unfold recognizeAngle at ha
      simp only at ha
      split_ifs at ha
      obtain rfl := Option.some.inj ha
      exact (henv.den_le _ _ hmd).trans hmd'
    have hq' : |q|.den ≤ 1000 := by
      rcases abs_choice q with h | h <;> rw [h]
      · exact hq
      · rw [Rat.neg_den]; exact hq
    rw [ha] at h
    simp only at h
    by_cases h0 : q = 0
    · rw [if_pos h0] at h; cases h
    rw [if_neg h0] at h
    cases hr : realToStr env ‖z‖ md atol rtol with
    | none => rw [hr] at h; cases h
    | some radius =>
      rw [hr] at h
      dsimp only at h
      have hang : LexOk env (angleToStr env ((|q| : ℚ) : ℝ) ++ [PTok.rpar]) :=
        (lexOk_angle env henv |q| hq').append ⟨trivial, trivial, trivial⟩ rfl
      have hp : LexOk env (PTok.expo :: ((if q < 0 then [PTok.neg] else []) ++ ([PTok.imag, PTok.times] ++ (angleToStr env ((|q| : ℚ) : ℝ) ++ [PTok.rpar])))) := by
        split_ifs
        · exact ⟨trivial, trivial, trivial, trivial, trivial, trivial, trivial, by simp [pairOk], by simpa using hang⟩
        · exact ⟨trivial, trivial, trivial, trivial, trivial, by simp [pairOk], by simpa using hang⟩
      generalize (if q < 0 then [PTok.neg] else []) = sg at h hp
      simp only [List.cons_append, List.append_assoc] at h
      split_ifs at h with h1
      · obtain rfl := Option.some.inj h
        exact hp
      · obtain rfl := Option.some.inj h
        exact (lexOk_real hr).append ⟨trivial, by simp [pairOk], hp⟩ rfl

theorem lexOk_decimal (env : PpEnv) (z : ℂ) (p : ℕ) (atol : ℝ) : LexOk env (decimalToStr env z p atol) := by
  unfold decimalToStr
  split_ifs with h1 h2 h3
  · exact lexOk_decToks _ _ _
  · exact (lexOk_decToks _ _ _).append ⟨trivial, trivial, trivial⟩ rfl
  · rw [List.append_assoc]
    exact (lexOk_decToks _ _ _).append ⟨trivial, trivial, ⟨p, z.im, (abs_of_neg h3).symm⟩, trivial, trivial, trivial, trivial⟩ rfl
  · rw [List.append_assoc]
    exact (lexOk_decToks _ _ _).append ⟨trivial, trivial, ⟨p, z.im, (abs_of_nonneg (not_lt.1 h3)).symm⟩, trivial, trivial, trivial, trivial⟩ rfl

theorem lexOk_cartesian {env : PpEnv} {re im : ℝ} {md : ℕ} {atol rtol : ℝ} {l : List PTok}
    (h : cartesianToStr env re im md atol rtol = some l) : LexOk env l := by
  unfold cartesianToStr at h
  cases hr : realToStr env re md atol rtol with
  | none => rw [hr] at h; cases h
  | some reStr =>
    cases hi : recognizeSqrt env im md atol rtol with
    | none => rw [hr, hi] at h; cases h
    | some r =>
      obtain ⟨s, i, d⟩ := r
      rw [hr, hi] at h
      dsimp only at h
      obtain rfl := Option.some.inj h
      rw [List.append_assoc]
      have hb : LexOk env (if s.natAbs = 1 ∧ i = 1 ∧ d = 1 then [PTok.imag] else renderReal |s| i d ++ [.imag]) := by
        split_ifs
        · exact ⟨trivial, trivial, trivial⟩
        · exact (lexOk_renderReal _ _ _ _).append ⟨trivial, trivial, trivial⟩ rfl
      refine (lexOk_real hr).append ⟨?_, ?_, hb⟩ ?_ <;> split_ifs <;> simp [tokLit, pairOk, notNumTok]

/-- Every printed number can be split. -/
theorem lexOk_complex (env : PpEnv) (henv : env.Valid) (z : ℂ) (md : ℕ) (hmd : 0 < md) (hmd' : md ≤ 1000) (atol rtol : ℝ) (p : ℕ) :
    LexOk env (complexToStr env z md atol rtol p) := by
  have hd : LexOk env (decimalToStr env z p atol) := lexOk_decimal _ _ _ _
  unfold complexToStr
  split_ifs with h1 h2 h3
  · exact ⟨trivial, trivial, trivial⟩
  · cases hr : realToStr env z.re md atol rtol with
    | none => exact hd
    | some l => exact lexOk_real hr
  · cases hr : imaginaryToStr env z.im md atol rtol with
    | none => exact hd
    | some l =>
      unfold imaginaryToStr at hr
      rw [Option.map_eq_some_iff] at hr
      obtain ⟨⟨s, i, d⟩, -, rfl⟩ := hr
      exact lexOk_renderImaginary _ _ _ _
  · dsimp only
    split
    · rename_i e h _
      exact lexOk_exponential henv hmd hmd' h
    · split
      · rename_i c h
        exact lexOk_cartesian h
      · split
        · rename_i e h
          exact lexOk_exponential henv hmd hmd' h
        · exact hd

/-! ### Splitting -/

/-- A number stops before this text. -/
def NumStop : List Char → Prop
  | [] => True
  | c :: r => c.isDigit = false ∧ c ≠ '.' ∧ (c = 'e' → r.head? = some '^')

theorem numPart_stop {rest : List Char} (h : NumStop rest) : numPart false rest = ([], rest) := by
  cases rest with
  | nil => rfl
  | cons c r =>
    obtain ⟨h1, h2, h3⟩ := h
    rw [numPart, if_neg (by simp [h1, h2]), if_neg (fun h => h.2 (h3 h.1)), if_neg (by simp)]

theorem numPart_digits (b : Bool) {m : List Char} (hm : ∀ x ∈ m, x.isDigit = true ∨ x = '.') (hne : b = true → m ≠ []) (rest : List Char) :
    numPart b (m ++ rest) = (m ++ (numPart false rest).1, (numPart false rest).2) := by
  induction m generalizing b with
  | nil =>
    cases b with
    | true => exact absurd rfl (hne rfl)
    | false => rfl
  | cons c m ih =>
    rw [List.cons_append, numPart, if_pos (hm c (by simp)), ih false (fun x hx => hm x (by simp [hx])) (by simp)]
    rfl

theorem numPart_dec {s rest : List Char} (hs : DecShape s) (h : NumStop rest) : numPart false (s ++ rest) = (s, rest) := by
  obtain ⟨c, m, e, rfl, hc, hm, he⟩ := hs
  rw [List.append_assoc, numPart_digits false (m := c :: m) (by
    intro x hx
    rcases List.mem_cons.1 hx with rfl | hx
    · exact Or.inl hc
    · exact hm x hx) (by simp)]
  have hr : numPart false (e ++ rest) = (e, rest) := by
    rcases he with rfl | ⟨sg, d, rfl, hsg, hd⟩
    · exact numPart_stop h
    · have hsg' : sg.isDigit = false ∧ sg ≠ '.' ∧ sg ≠ 'e' ∧ sg ≠ '^' := by rcases hsg with rfl | rfl <;> decide
      rw [List.cons_append, List.cons_append, numPart, if_neg (by decide), if_pos ⟨rfl, by simpa using hsg'.2.2.2⟩, numPart,
        if_neg (by simp [hsg'.1, hsg'.2.1]), if_neg (fun h => hsg'.2.2.1 h.1), if_pos ⟨rfl, hsg⟩,
        numPart_digits false (fun x hx => Or.inl (hd x hx)) (by simp), numPart_stop h]
      simp
  rw [hr]

theorem decShape_toDigits (n : ℕ) : DecShape (Nat.toDigits 10 n) := by
  have hd : ∀ c ∈ Nat.toDigits 10 n, c.isDigit = true := fun c hc => Nat.isDigit_of_mem_toDigits (by norm_num) (by norm_num) hc
  cases h : Nat.toDigits 10 n with
  | nil => exact absurd h Nat.toDigits_ne_nil
  | cons c m =>
    rw [h] at hd
    exact ⟨c, m, [], by simp, hd c (by simp), fun x hx => Or.inl (hd x (by simp [hx])), Or.inl rfl⟩

/-- The token that is read: a literal with digits only is a natural number. -/
noncomputable def normTok (dec : ℝ → List Char) : PTok → PTok
  | .dec x => if (dec x).all Char.isDigit = true then .nat (Nat.ofDigitChars 10 (dec x) 0) else .dec x
  | t => t

theorem find_fixed_digit {c : Char} (hc : c.isDigit = true) (l : List Char) :
    fixedToks.find? (fun kt => kt.1.isPrefixOf (c :: l)) = none ∧ (['s', 'q', 'r', 't', '('] : List Char).isPrefixOf (c :: l) = false ∧
      (['|'] : List Char).isPrefixOf (c :: l) = false := by
  have h : ∀ x : Char, x.isDigit = false → (x == c) = false := by
    intro x hx
    rw [beq_eq_false_iff_ne]
    rintro rfl
    rw [hc] at hx; cases hx
  simp [fixedToks, List.isPrefixOf, h '-' (by decide), h ' ' (by decide), h '+' (by decide), h 'i' (by decide), h 'p' (by decide), h '/' (by decide),
    h '*' (by decide), h 'e' (by decide), h ')' (by decide), h 's' (by decide), h '(' (by decide), h '|' (by decide)]

theorem lexTok_number {rd : List Char → Option ℝ} {s rest : List Char} (hs : DecShape s) (h : NumStop rest) :
    lexTok rd (s ++ rest) =
      if s.all Char.isDigit = true then some (.nat (Nat.ofDigitChars 10 s 0), rest) else (rd s).map fun x => (.dec x, rest) := by
  have hn := numPart_dec hs h
  obtain ⟨c, m, e, rfl, hc, -, -⟩ := hs
  have hf := find_fixed_digit hc (m ++ e ++ rest)
  unfold lexTok
  rw [hn]
  simp only [List.cons_append] at hf ⊢
  rw [hf.1, hf.2.1, hf.2.2]
  simp

theorem takeWhile_digits {d : List Char} (hd : ∀ c ∈ d, c.isDigit = true) (rest : List Char) :
    (d ++ ')' :: rest).takeWhile Char.isDigit = d ∧ (d ++ ')' :: rest).dropWhile Char.isDigit = ')' :: rest := by
  constructor
  · rw [List.takeWhile_append_of_pos hd]
    simp [show Char.isDigit ')' = false from by decide]
  · rw [List.dropWhile_append_of_pos hd]
    simp [show Char.isDigit ')' = false from by decide]

theorem takeWhile_ket {s : List Char} (hs : '>' ∉ s) (rest : List Char) :
    (s ++ '>' :: rest).takeWhile (fun c => decide (c ≠ '>')) = s ∧ (s ++ '>' :: rest).dropWhile (fun c => decide (c ≠ '>')) = '>' :: rest := by
  have h : ∀ c ∈ s, decide (c ≠ '>') = true := fun c hc => decide_eq_true fun h => hs (h ▸ hc)
  constructor
  · rw [List.takeWhile_append_of_pos h]
    simp
  · rw [List.dropWhile_append_of_pos h]
    simp

/-- Each token is read. -/
theorem lexTok_chars {env : PpEnv} {rd : List Char → Option ℝ} {dec : ℝ → List Char} (hl : Literals env rd dec) {t : PTok} (ht : tokLit env t)
    {rest : List Char} (hs : notNumTok t = false → NumStop rest) : lexTok rd (t.chars dec ++ rest) = some (normTok dec t, rest) := by
  have hdig : ∀ n, ∀ c ∈ Nat.toDigits 10 n, c.isDigit = true := fun n c hc => Nat.isDigit_of_mem_toDigits (by norm_num) (by norm_num) hc
  cases t with
  | ket s =>
    obtain ⟨h1, h2⟩ := takeWhile_ket ht rest
    have e : PTok.chars dec (.ket s) ++ rest = '|' :: (s ++ '>' :: rest) := by simp [PTok.chars]
    rw [e]
    have hf : fixedToks.find? (fun kt => kt.1.isPrefixOf ('|' :: (s ++ '>' :: rest))) = none := by
      simp [fixedToks, List.isPrefixOf]
    unfold lexTok
    rw [hf]
    simp only [List.tail_cons, h1, h2]
    rw [if_neg (by simp [List.isPrefixOf]), if_pos (by simp [List.isPrefixOf]), if_neg (by simp)]
    rfl
  | nat n =>
    simp only [PTok.chars]
    rw [lexTok_number (decShape_toDigits n) (hs rfl), if_pos (List.all_eq_true.2 (hdig n)), Nat.ofDigitChars_toDigits (by norm_num) (by norm_num)]
    rfl
  | dec x =>
    obtain ⟨p, y, rfl⟩ := ht
    simp only [PTok.chars, normTok]
    rw [lexTok_number (hl.shape p y) (hs rfl), hl.read]
    split_ifs <;> rfl
  | sqrt n =>
    obtain ⟨h1, h2⟩ := takeWhile_digits (hdig n) rest
    have e : PTok.chars dec (.sqrt n) ++ rest = 's' :: 'q' :: 'r' :: 't' :: '(' :: (Nat.toDigits 10 n ++ ')' :: rest) := by
      simp [PTok.chars]
    rw [e]
    have hf : fixedToks.find? (fun kt => kt.1.isPrefixOf ('s' :: 'q' :: 'r' :: 't' :: '(' :: (Nat.toDigits 10 n ++ ')' :: rest))) = none := by
      simp [fixedToks, List.isPrefixOf]
    unfold lexTok
    rw [hf]
    simp only [List.drop_succ_cons, List.drop_zero, h1, h2]
    have hh : (')' :: rest).head? = some ')' := rfl
    rw [if_pos (by simp [List.isPrefixOf]), if_pos hh, Nat.ofDigitChars_toDigits (by norm_num) (by norm_num)]
    rfl
  | _ => simp [lexTok, PTok.chars, fixedToks, List.isPrefixOf, normTok]

theorem numStop_tokText {dec : ℝ → List Char} {l : List PTok} (hl : ∀ t, l.head? = some t → notNumTok t = true) :
    NumStop (tokText dec l) := by
  cases l with
  | nil => trivial
  | cons t l =>
    have h := hl t rfl
    cases t with
    | nat n => cases h
    | dec x => cases h
    | _ => simp [tokText, PTok.chars, NumStop] <;> decide

/-- The tokens are found again. -/
theorem lexText_tokText {env : PpEnv} {rd : List Char → Option ℝ} {dec : ℝ → List Char} (hl : Literals env rd dec) {l : List PTok} (h : LexOk env l)
    (n : ℕ) (hn : (tokText dec l).length ≤ n) : lexText rd n (tokText dec l) = some (l.map (normTok dec)) := by
  induction l generalizing n with
  | nil => cases n <;> rfl
  | cons t l ih =>
    have hstep : lexTok rd (t.chars dec ++ tokText dec l) = some (normTok dec t, tokText dec l) := by
      refine lexTok_chars hl h.1 fun hnum => numStop_tokText fun t' ht' => ?_
      have hp := h.2.1
      rw [ht'] at hp
      cases t <;> cases hnum <;> cases t' <;> first | exact absurd hp id | rfl
    have hne : t.chars dec ≠ [] := by
      have hlit := h.1
      cases t with
      | nat n => exact Nat.toDigits_ne_nil
      | dec x =>
        obtain ⟨p, y, rfl⟩ := hlit
        obtain ⟨c, m, e, he, -⟩ := hl.shape p y
        simp only [PTok.chars, he]; simp
      | _ => simp [PTok.chars]
    have hcat : tokText dec (t :: l) = t.chars dec ++ tokText dec l := rfl
    rw [hcat] at hn ⊢
    cases hc : t.chars dec with
    | nil => exact absurd hc hne
    | cons c cs =>
      rw [hc] at hstep hn
      cases n with
      | zero => simp at hn
      | succ n =>
        rw [List.cons_append] at hstep hn ⊢
        rw [lexText, hstep]
        dsimp only
        rw [ih h.2.2 n (by simp at hn; omega)]
        rfl

/-! ### A natural number and a literal read in the same way -/

/-- The same tokens, but for literals with digits only. -/
inductive SameToks : List PTok → List PTok → Prop
  | nil : SameToks [] []
  | num {l l' : List PTok} (n : ℕ) (x : ℝ) (h : (n : ℝ) = x) (hl : SameToks l l') : SameToks (.nat n :: l) (.dec x :: l')
  | div {l l' : List PTok} (n : ℕ) (hl : SameToks l l') : SameToks (.div :: .nat n :: l) (.div :: .nat n :: l')
  | cons {l l' : List PTok} (t : PTok) (h : t ≠ .div) (hl : SameToks l l') : SameToks (t :: l) (t :: l')

theorem sameToks_norm {env : PpEnv} {rd : List Char → Option ℝ} {dec : ℝ → List Char} (hl : Literals env rd dec) (l : List PTok) (h : LexOk env l) :
    SameToks (l.map (normTok dec)) l := by
  induction l using List.twoStepInduction with
  | nil => exact .nil
  | singleton t =>
    cases t with
    | div => exact absurd h.2.1 id
    | dec x =>
      obtain ⟨p, y, rfl⟩ := h.1
      simp only [List.map_cons, List.map_nil, normTok]
      split_ifs with hd
      · refine .num _ _ ?_ .nil
        obtain ⟨c, m, e, he, -⟩ := hl.shape p y
        have := hl.nat _ (by rw [he]; simp) (List.all_eq_true.1 hd)
        rw [hl.read] at this
        exact (Option.some.inj this).symm
      · exact .cons _ (by simp [normTok]) .nil
    | _ => exact .cons _ (by simp [normTok]) .nil
  | cons_cons t t2 l ih1 ih2 =>
    have ih2 := ih2 _ h.2.2
    cases t with
    | div =>
      have hp := h.2.1
      cases t2 with
      | nat n => exact .div n (ih1 h.2.2.2.2)
      | _ => exact absurd hp id
    | dec x =>
      obtain ⟨p, y, rfl⟩ := h.1
      rw [List.map_cons]
      simp only [normTok]
      split_ifs with hd
      · refine .num _ _ ?_ ih2
        obtain ⟨c, m, e, he, -⟩ := hl.shape p y
        have := hl.nat _ (by rw [he]; simp) (List.all_eq_true.1 hd)
        rw [hl.read] at this
        exact (Option.some.inj this).symm
      · exact .cons _ (by simp [normTok]) ih2
    | _ => exact .cons _ (by simp [normTok]) ih2

theorem SameToks.readFactors {l l' : List PTok} (h : SameToks l l') (acc : ℂ) :
    (Graphix.readFactors acc l).1 = (Graphix.readFactors acc l').1 ∧ SameToks (Graphix.readFactors acc l).2 (Graphix.readFactors acc l').2 := by
  induction h generalizing acc with
  | nil => exact ⟨rfl, .nil⟩
  | num n x hx hl ih =>
    simp only [Graphix.readFactors]
    have : (n : ℂ) = (x : ℂ) := by rw [← hx]; simp
    rw [this]
    exact ih _
  | div n hl ih =>
    simp only [Graphix.readFactors]
    exact ih _
  | cons t ht hl ih =>
    cases t with
    | div => exact absurd rfl ht
    | nat n => simp only [Graphix.readFactors]; exact ih _
    | dec n => simp only [Graphix.readFactors]; exact ih _
    | sqrt n => simp only [Graphix.readFactors]; exact ih _
    | imag => simp only [Graphix.readFactors]; exact ih _
    | pi => simp only [Graphix.readFactors]; exact ih _
    | times => simp only [Graphix.readFactors]; exact ih _
    | _ => exact ⟨rfl, .cons _ ht hl⟩

theorem SameToks.readSigned {l l' : List PTok} (h : SameToks l l') :
    (Graphix.readSigned l).1 = (Graphix.readSigned l').1 ∧ SameToks (Graphix.readSigned l).2 (Graphix.readSigned l').2 := by
  cases h with
  | nil => exact ⟨rfl, .nil⟩
  | num n x hx hl => exact (SameToks.num n x hx hl).readFactors 1
  | div n hl => exact (SameToks.div n hl).readFactors 1
  | cons t ht hl =>
    cases t with
    | neg => exact hl.readFactors (-1)
    | _ => exact (SameToks.cons _ ht hl).readFactors 1

/-- Both are nothing, or the same number with the same rest. -/
def SameRead : Option (ℂ × List PTok) → Option (ℂ × List PTok) → Prop
  | none, none => True
  | some (a, l), some (b, l') => a = b ∧ SameToks l l'
  | _, _ => False

theorem SameToks.readTerm {l l' : List PTok} (h : SameToks l l') : SameRead (Graphix.readTerm l) (Graphix.readTerm l') := by
  have hs := h.readSigned
  have hnil : l = [] ↔ l' = [] := by cases h <;> simp
  unfold Graphix.readTerm
  by_cases hl : l = []
  · rw [if_pos hl, if_pos (hnil.1 hl)]; trivial
  rw [if_neg hl, if_neg fun h => hl (hnil.2 h)]
  revert hs
  generalize Graphix.readSigned l = x
  generalize Graphix.readSigned l' = y
  obtain ⟨a, r⟩ := x
  obtain ⟨b, r'⟩ := y
  rintro ⟨hab, hr⟩
  dsimp only at hab hr
  subst hab
  cases hr with
  | nil => exact ⟨rfl, .nil⟩
  | num n x hx hl => exact ⟨rfl, .num n x hx hl⟩
  | div n hl => exact ⟨rfl, .div n hl⟩
  | cons t ht hl =>
    cases t with
    | expo =>
      dsimp only
      have hs := hl.readSigned
      revert hs
      generalize Graphix.readSigned _ = x
      generalize Graphix.readSigned _ = y
      obtain ⟨c, r⟩ := x
      obtain ⟨d, r'⟩ := y
      rintro ⟨hcd, hr⟩
      dsimp only at hcd hr
      subst hcd
      cases hr with
      | nil => trivial
      | num n x hx hl => trivial
      | div n hl => trivial
      | cons t ht hl =>
        cases t with
        | rpar => exact ⟨rfl, hl⟩
        | _ => trivial
    | _ => exact ⟨rfl, .cons _ ht hl⟩

theorem SameToks.readNumber {l l' : List PTok} (h : SameToks l l') : Graphix.readNumber l = Graphix.readNumber l' := by
  have h1 := h.readTerm
  unfold Graphix.readNumber
  revert h1
  generalize Graphix.readTerm l = x
  generalize Graphix.readTerm l' = y
  intro h1
  match x, y, h1 with
  | none, none, _ => rfl
  | some (a, r), some (b, r'), h1 =>
    obtain ⟨rfl, hr⟩ := h1
    have key : ∀ {m m' : List PTok}, SameToks m m' → SameRead (Graphix.readTerm m) (Graphix.readTerm m') := fun h => h.readTerm
    cases hr with
    | nil => rfl
    | num n x hx hl => rfl
    | div n hl => rfl
    | cons t ht hl =>
      have h2 := key hl
      cases t with
      | add | pos | sub | neg =>
        dsimp only
        revert h2
        generalize Graphix.readTerm _ = x
        generalize Graphix.readTerm _ = y
        intro h2
        match x, y, h2 with
        | none, none, _ => rfl
        | some (c, r), some (d, r'), h2 =>
          obtain ⟨rfl, hr⟩ := h2
          cases hr <;> rfl
      | _ => rfl

/-- **C71** The characters of a printed number: they are split in its tokens, so the text reads as the tokens do. -/
theorem C71_text (env : PpEnv) (henv : env.Valid) (rd : List Char → Option ℝ) (dec : ℝ → List Char) (hl : Literals env rd dec) (md : ℕ) (hmd : 0 < md)
    (hmd' : md ≤ 1000) (atol rtol : ℝ) (p : ℕ) (z : ℂ) :
    readText rd (tokText dec (complexToStr env z md atol rtol p)) = readNumber (complexToStr env z md atol rtol p) := by
  have h := lexOk_complex env henv z md hmd hmd' atol rtol p
  unfold readText
  rw [lexText_tokText hl h _ le_rfl, Option.bind_some]
  exact (sameToks_norm hl _ h).readNumber

/-- **C71** The characters that `complex_to_str(z)` writes read as a number close to `z`. -/
theorem C71_text_close (env : PpEnv) (henv : env.Valid) (rd : List Char → Option ℝ) (dec : ℝ → List Char) (hl : Literals env rd dec) (md : ℕ)
    (hmd : 0 < md) (hmd' : md ≤ 1000) (atol : ℝ) (ha : 0 ≤ atol) (p : ℕ) (u : ℝ) (hu : env.Rounds p u) (z : ℂ) :
    ∃ w, readText rd (tokText dec (complexToStr env z md atol 0 p)) = some w ∧
      (‖w - z‖ ≤ 2 * max atol (Real.sqrt atol) + Real.pi * atol * ‖z‖ ∨
        (‖w - z‖ ≤ atol + u * ‖z‖ ∧ (recognizeSqrt env z.re md atol 0 = none ∨ recognizeSqrt env z.im md atol 0 = none))) := by
  rw [C71_text env henv rd dec hl md hmd hmd' atol 0 p z]
  exact C71_complex_to_str env henv md hmd hmd' atol ha p u hu z

/-- **C80** The characters of a density matrix: the cells that a reader finds read as numbers close to the entries. -/
theorem C80_text (env : PpEnv) (henv : env.Valid) (rd : List Char → Option ℝ) (dec : ℝ → List Char) (hdec : DecText dec) (hl : Literals env rd dec)
    (md : ℕ) (hmd : 0 < md) (hmd' : md ≤ 1000) (atol : ℝ) (ha : 0 ≤ atol) (p : ℕ) (u : ℝ) (hu : env.Rounds p u) (dm : DensityMatrix)
    (hr : 0 < dm.rho.rows) :
    ∃ cell : ℕ → ℕ → List Char, readGrid (densityMatrixToStr env dec dm md atol 0 p) =
        some ((List.range dm.rho.rows).map fun i => (List.range dm.rho.cols).map fun j => cell i j) ∧
      ∀ i < dm.rho.rows, ∀ j < dm.rho.cols, ∃ w, readText rd (cell i j) = some w ∧
        (‖w - dm.rho.entry i j‖ ≤ 2 * max atol (Real.sqrt atol) + Real.pi * atol * ‖dm.rho.entry i j‖ ∨
          (‖w - dm.rho.entry i j‖ ≤ atol + u * ‖dm.rho.entry i j‖ ∧
            (recognizeSqrt env (dm.rho.entry i j).re md atol 0 = none ∨ recognizeSqrt env (dm.rho.entry i j).im md atol 0 = none))) := by
  refine ⟨fun i j => tokText dec (complexToStr env (dm.rho.entry i j) md atol 0 p), (readGrid_alignGrid _ (by simpa using hr.ne') ?_).2,
    fun i _ j _ => C71_text_close env henv rd dec hl md hmd hmd' atol ha p u hu _⟩
  intro r hr e he
  rw [List.mem_map] at hr
  obtain ⟨i, -, rfl⟩ := hr
  rw [List.mem_map] at he
  obtain ⟨j, -, rfl⟩ := he
  exact cellText_complex hdec env _ md atol 0 p

/-! ### The characters of a state -/

theorem LexOk.append' {env : PpEnv} {a b : List PTok} (ha : LexOk env a) (hb : LexOk env b) (h : ∀ t, b.head? = some t → notNumTok t = true) :
    LexOk env (a ++ b) := by
  cases b with
  | nil => rwa [List.append_nil]
  | cons t b => exact ha.append hb (h t rfl)

theorem lexOk_termToks {env : PpEnv} {paren : Bool} {c : List PTok} {k : List Char} (hc : LexOk env c) (hk : '>' ∉ k) :
    LexOk env (termToks paren c k) := by
  have hket : LexOk env [.ket k] := ⟨hk, trivial, trivial⟩
  unfold termToks
  split_ifs
  · exact hket
  · exact ⟨trivial, trivial, hket⟩
  · rw [List.append_assoc]
    exact ⟨trivial, by simp [pairOk], hc.append ⟨trivial, trivial, hket⟩ rfl⟩
  · exact hc.append hket rfl

theorem lexOk_connect {env : PpEnv} {t : List PTok} (ht : LexOk env t) :
    LexOk env (connectTerm t) ∧ ∃ x l, connectTerm t = x :: l ∧ notNumTok x = true := by
  unfold connectTerm
  split
  · exact ⟨⟨trivial, by simp [pairOk], ht.2.2⟩, _, _, rfl, rfl⟩
  · exact ⟨⟨trivial, by simp [pairOk], ht⟩, _, _, rfl, rfl⟩

theorem lexOk_flatMap {env : PpEnv} {ts : List (List PTok)} (h : ∀ t ∈ ts, LexOk env t) :
    LexOk env (ts.flatMap connectTerm) ∧ ∀ x, (ts.flatMap connectTerm).head? = some x → notNumTok x = true := by
  induction ts with
  | nil => exact ⟨trivial, fun x hx => by cases hx⟩
  | cons t ts ih =>
    obtain ⟨i1, i2⟩ := ih fun t ht => h t (List.mem_cons_of_mem _ ht)
    obtain ⟨c1, x, l, hx, hn⟩ := lexOk_connect (h t (by simp))
    rw [List.flatMap_cons]
    refine ⟨c1.append' i1 i2, fun y hy => ?_⟩
    rw [hx] at hy
    obtain rfl := Option.some.inj hy
    exact hn

theorem lexOk_joinTerms {env : PpEnv} {ts : List (List PTok)} (h : ∀ t ∈ ts, LexOk env t) : LexOk env (joinTerms ts) := by
  cases ts with
  | nil => trivial
  | cons t ts =>
    obtain ⟨i1, i2⟩ := lexOk_flatMap fun t ht => h t (List.mem_cons_of_mem _ ht)
    exact (h t (by simp)).append' i1 i2

theorem ket_mem_joinTerms (paren : Bool) (f : ℂ → List PTok) (kv : List Char × ℂ) (d : List (List Char × ℂ)) :
    PTok.ket kv.1 ∈ joinTerms ((kv :: d).map fun kv => termToks paren (f kv.2) kv.1) := by
  rw [List.map_cons, joinTerms, termToks_eq]
  simp

/-- The text of a state can be split, and it is one number only when there is no ket. -/
theorem lexOk_state (env : PpEnv) (henv : env.Valid) (md : ℕ) (hmd : 0 < md) (hmd' : md ≤ 1000) (atol rtol : ℝ) (p : ℕ)
    (d : List (List Char × ℂ)) (hd : ∀ kv ∈ d, '>' ∉ kv.1) :
    LexOk env (dictToStr env d md atol rtol p) ∧ (dictToStr env d md atol rtol p = [.nat 0] ∨ ∃ k, PTok.ket k ∈ dictToStr env d md atol rtol p) := by
  have hz : ∀ z, LexOk env (complexToStr env z md atol rtol p) := fun z => lexOk_complex env henv z md hmd hmd' atol rtol p
  have hjoin : ∀ paren (f : ℂ → ℂ), LexOk env (joinTerms (d.map fun kv => termToks paren (complexToStr env (f kv.2) md atol rtol p) kv.1)) := by
    intro paren f
    refine lexOk_joinTerms fun t ht => ?_
    obtain ⟨kv, hkv, rfl⟩ := List.mem_map.1 ht
    exact lexOk_termToks (hz _) (hd kv hkv)
  unfold dictToStr
  split_ifs with h0
  · exact ⟨⟨trivial, trivial, trivial⟩, Or.inl rfl⟩
  obtain ⟨kv, d', rfl⟩ := List.exists_cons_of_ne_nil h0
  have hplain : LexOk env (joinTerms ((kv :: d').map fun kv => termToks true (complexToStr env kv.2 md atol rtol p) kv.1)) ∧
      ∃ k, PTok.ket k ∈ joinTerms ((kv :: d').map fun kv => termToks true (complexToStr env kv.2 md atol rtol p) kv.1) :=
    ⟨hjoin true id, kv.1, ket_mem_joinTerms true (fun z => complexToStr env z md atol rtol p) kv d'⟩
  cases hf : factorUniform env (kv :: d') md atol rtol p with
  | none => exact ⟨hplain.1, Or.inr hplain.2⟩
  | some l =>
    rw [Option.getD_some]
    cases d' with
    | nil => cases hf
    | cons kw d' =>
      unfold factorUniform at hf
      simp only at hf
      split_ifs at hf
      obtain rfl := Option.some.inj hf
      refine ⟨?_, Or.inr ⟨kv.1, ?_⟩⟩
      · rw [List.append_assoc, List.append_assoc]
        exact (hz _).append ⟨trivial, by simp [pairOk],
          (hjoin false (fun z => z / ((‖kv.2‖ : ℝ) : ℂ))).append ⟨trivial, trivial, trivial⟩ rfl⟩ rfl
      · have := ket_mem_joinTerms false (fun z => complexToStr env (z / ((‖kv.2‖ : ℝ) : ℂ)) md atol rtol p) kv (kw :: d')
        rw [List.mem_append, List.mem_append]
        exact Or.inl (Or.inr this)

theorem SameToks.append {a a' b b' : List PTok} (ha : SameToks a a') (hb : SameToks b b') : SameToks (a ++ b) (a' ++ b') := by
  induction ha with
  | nil => exact hb
  | num n x h _ ih => exact .num n x h ih
  | div n _ ih => exact .div n ih
  | cons t h _ ih => exact .cons t h ih

theorem SameToks.last {l l' : List PTok} (h : SameToks l l') :
    (l.getLast? = some .rpar ↔ l'.getLast? = some .rpar) ∧ (l.getLast? = some .rpar → SameToks l.dropLast l'.dropLast) := by
  have hrec : ∀ {a a' : List PTok} (b b' : List PTok), SameToks a a' → a ≠ [] → a' ≠ [] → (a.getLast? = some .rpar ↔ a'.getLast? = some .rpar) →
      ((b ++ a).getLast? = some .rpar ↔ (b' ++ a').getLast? = some .rpar) := by
    intro a a' b b' _ h1 h2 h3
    rw [List.getLast?_append_of_ne_nil _ h1, List.getLast?_append_of_ne_nil _ h2]
    exact h3
  induction h with
  | nil => exact ⟨Iff.rfl, fun _ => .nil⟩
  | @num l l' n x hx hl ih =>
    by_cases h0 : l = []
    · subst h0
      cases hl
      simp
    · have h0' : l' ≠ [] := by rintro rfl; cases hl; exact h0 rfl
      refine ⟨hrec [.nat n] [.dec x] hl h0 h0' ih.1, fun h => ?_⟩
      rw [List.dropLast_cons_of_ne_nil h0, List.dropLast_cons_of_ne_nil h0']
      refine .num n x hx (ih.2 ?_)
      rwa [← List.singleton_append, List.getLast?_append_of_ne_nil _ h0] at h
  | @div l l' n hl ih =>
    by_cases h0 : l = []
    · subst h0
      cases hl
      simp
    · have h0' : l' ≠ [] := by rintro rfl; cases hl; exact h0 rfl
      refine ⟨hrec [.div, .nat n] [.div, .nat n] hl h0 h0' ih.1, fun h => ?_⟩
      rw [List.dropLast_cons_of_ne_nil (by simp), List.dropLast_cons_of_ne_nil h0, List.dropLast_cons_of_ne_nil (by simp),
        List.dropLast_cons_of_ne_nil h0']
      refine .div n (ih.2 ?_)
      have e : PTok.div :: .nat n :: l = [.div, .nat n] ++ l := rfl
      rwa [e, List.getLast?_append_of_ne_nil _ h0] at h
  | @cons l l' t ht hl ih =>
    by_cases h0 : l = []
    · subst h0
      cases hl
      exact ⟨Iff.rfl, fun _ => .nil⟩
    · have h0' : l' ≠ [] := by rintro rfl; cases hl; exact h0 rfl
      refine ⟨hrec [t] [t] hl h0 h0' ih.1, fun h => ?_⟩
      rw [List.dropLast_cons_of_ne_nil h0, List.dropLast_cons_of_ne_nil h0']
      refine .cons t ht (ih.2 ?_)
      rwa [← List.singleton_append, List.getLast?_append_of_ne_nil _ h0] at h

/-- The value of a text that is one term. -/
noncomputable def oneTermVal : Option (ℂ × List PTok) → Option ℂ
  | some (a, []) => some a
  | _ => none

theorem readCoef_default {l : List PTok} (h1 : l ≠ []) (h2 : l ≠ [.neg]) (h3 : ∀ m, l ≠ .lpar :: m) : readCoef l = oneTermVal (readTerm l) := by
  unfold readCoef
  split
  · exact absurd rfl h1
  · exact absurd rfl h2
  · exact absurd rfl (h3 _)
  · rfl

theorem sameRead_single {x y : Option (ℂ × List PTok)} (h : SameRead x y) : oneTermVal x = oneTermVal y := by
  match x, y, h with
  | none, none, _ => rfl
  | some (a, r), some (b, r'), h =>
    obtain ⟨rfl, hr⟩ := h
    cases hr <;> rfl

theorem SameToks.readCoef {l l' : List PTok} (h : SameToks l l') : Graphix.readCoef l = Graphix.readCoef l' := by
  have h1 := sameRead_single h.readTerm
  cases h with
  | nil => rfl
  | num n x hx hl => rw [readCoef_default (by simp) (by simp) (by simp), readCoef_default (by simp) (by simp) (by simp)]; exact h1
  | div n hl => rw [readCoef_default (by simp) (by simp) (by simp), readCoef_default (by simp) (by simp) (by simp)]; exact h1
  | @cons m m' t ht hl =>
    cases t with
    | neg =>
      cases hl with
      | nil => rfl
      | _ => rw [readCoef_default (by simp) (by simp) (by simp), readCoef_default (by simp) (by simp) (by simp)]; exact h1
    | lpar =>
      obtain ⟨l1, l2⟩ := hl.last
      unfold Graphix.readCoef
      dsimp only
      by_cases hm : m.getLast? = some .rpar
      · rw [hm, l1.1 hm]
        exact (l2 hm).readNumber
      · have hm' : ¬ m'.getLast? = some .rpar := fun h => hm (l1.2 h)
        clear h1 l1 l2
        revert hm hm'
        generalize m.getLast? = x
        generalize m'.getLast? = y
        intro hm hm'
        split
        · exact absurd rfl hm
        · first
            | rfl
            | (split
               · exact absurd rfl hm'
               · rfl)
    | _ => rw [readCoef_default (by simp) (by simp) (by simp), readCoef_default (by simp) (by simp) (by simp)]; exact h1

theorem readKets_step (sgn : ℂ) (c : List PTok) (t : PTok) (ht : ∀ k, t ≠ .ket k) (l : List PTok) :
    readKets sgn c (t :: l) = readKets sgn (c ++ [t]) l := by
  cases t with
  | ket k => exact absurd rfl (ht k)
  | _ => rw [readKets] <;> simp

theorem SameToks.readKets (n : ℕ) {l l' : List PTok} (h : SameToks l l') (hn : l.length ≤ n) (sgn : ℂ) {c c' : List PTok} (hc : SameToks c c') :
    Graphix.readKets sgn c l = Graphix.readKets sgn c' l' := by
  induction n generalizing l l' sgn c c' with
  | zero =>
    cases h with
    | nil => rfl
    | _ => simp at hn
  | succ n ih =>
    cases h with
    | nil => rfl
    | num m x hx hl =>
      rw [readKets_step _ _ _ (by simp), readKets_step _ _ _ (by simp)]
      exact ih hl (by simpa using hn) sgn (hc.append (.num m x hx .nil))
    | div m hl =>
      rw [readKets_step _ _ _ (by simp), readKets_step _ _ _ (by simp), readKets_step _ _ .div (by simp), readKets_step _ _ _ (by simp),
        List.append_assoc, List.append_assoc]
      exact ih hl (by simp at hn; omega) sgn (hc.append (.div m .nil))
    | cons t ht hl =>
      cases t with
      | ket k =>
        have hcoef := hc.readCoef
        cases hl with
        | nil => simp only [Graphix.readKets]; rw [hcoef]
        | num m x hx hl => rfl
        | div m hl => rfl
        | cons t2 ht2 hl2 =>
          have hlen := hn
          simp only [List.length_cons] at hlen
          cases t2 with
          | add => simp only [Graphix.readKets]; rw [hcoef, ih hl2 (by omega) 1 .nil]
          | sub => simp only [Graphix.readKets]; rw [hcoef, ih hl2 (by omega) (-1) .nil]
          | _ => rfl
      | _ =>
        rw [readKets_step _ _ _ (by simp), readKets_step _ _ _ (by simp)]
        exact ih hl (by simpa using hn) sgn (hc.append (.cons _ ht .nil))

theorem splitFactor_step (c : List PTok) (t : PTok) (ht : ∀ k, t ≠ .ket k) (ht2 : t ≠ .lpar) (l : List PTok) :
    splitFactor c (t :: l) = splitFactor (c ++ [t]) l := by
  cases t with
  | ket k => exact absurd rfl (ht k)
  | lpar => exact absurd rfl ht2
  | _ => rw [splitFactor] <;> simp

/-- Both are nothing, or the same parts. -/
def SameSplit : Option (List PTok × List PTok) → Option (List PTok × List PTok) → Prop
  | none, none => True
  | some (a, l), some (b, l') => SameToks a b ∧ SameToks l l'
  | _, _ => False

theorem SameToks.splitFactor {l l' : List PTok} (h : SameToks l l') {c c' : List PTok} (hc : SameToks c c') :
    SameSplit (Graphix.splitFactor c l) (Graphix.splitFactor c' l') := by
  induction h generalizing c c' with
  | nil => trivial
  | num m x hx hl ih =>
    rw [splitFactor_step _ _ (by simp) (by simp), splitFactor_step _ _ (by simp) (by simp)]
    exact ih (hc.append (.num m x hx .nil))
  | div m hl ih =>
    rw [splitFactor_step _ _ (by simp) (by simp), splitFactor_step _ _ (by simp) (by simp), splitFactor_step _ .div (by simp) (by simp),
      splitFactor_step _ _ (by simp) (by simp), List.append_assoc, List.append_assoc]
    exact ih (hc.append (.div m .nil))
  | cons t ht hl ih =>
    cases t with
    | ket k => trivial
    | lpar =>
      have : c.isEmpty = c'.isEmpty := by cases hc <;> rfl
      simp only [Graphix.splitFactor]
      rw [this]
      split_ifs
      · trivial
      · exact ⟨hc, hl⟩
    | _ =>
      rw [splitFactor_step _ _ (by simp) (by simp), splitFactor_step _ _ (by simp) (by simp)]
      exact ih (hc.append (.cons _ ht .nil))

theorem SameToks.readState {l l' : List PTok} (h : SameToks l l') (h0 : l' = [.nat 0] ∨ ∃ k, PTok.ket k ∈ l') :
    Graphix.readState l = Graphix.readState l' := by
  rcases h0 with rfl | ⟨k, hk⟩
  · cases h with
    | cons t ht hl => cases hl; rfl
  have n1 : l' ≠ [.nat 0] := by rintro rfl; simp at hk
  have n2 : l ≠ [.nat 0] := by
    rintro rfl
    cases h with
    | num n x hx hl => cases hl; simp at hk
    | cons t ht hl => cases hl; simp at hk
  rw [readState_eq n1, readState_eq n2]
  have hs := h.splitFactor .nil
  revert hs
  generalize Graphix.splitFactor [] l = x
  generalize Graphix.splitFactor [] l' = y
  intro hs
  match x, y, hs with
  | none, none, _ => exact h.readKets _ le_rfl 1 .nil
  | some (a, m), some (b, m'), hs =>
    obtain ⟨hab, hm⟩ := hs
    obtain ⟨l1, l2⟩ := hm.last
    dsimp only
    by_cases hr : m.getLast? = some .rpar
    · rw [hr, l1.1 hr]
      dsimp only
      rw [hab.readNumber, (l2 hr).readKets _ le_rfl 1 .nil]
    · have hr' : ¬ m'.getLast? = some .rpar := fun h => hr (l1.2 h)
      revert hr hr'
      generalize m.getLast? = x
      generalize m'.getLast? = y
      intro hr hr'
      split
      · exact absurd rfl hr
      · first
          | rfl
          | (split
             · exact absurd rfl hr'
             · rfl)

/-- **C72** The characters of a printed state (any kets without `>`): they are split in its tokens, so the text reads as the tokens do. -/
theorem C72_text (env : PpEnv) (henv : env.Valid) (rd : List Char → Option ℝ) (dec : ℝ → List Char) (hl : Literals env rd dec) (md : ℕ) (hmd : 0 < md)
    (hmd' : md ≤ 1000) (atol rtol : ℝ) (p : ℕ) (d : List (List Char × ℂ)) (hd : ∀ kv ∈ d, '>' ∉ kv.1) :
    readStateText rd (tokText dec (dictToStr env d md atol rtol p)) = readState (dictToStr env d md atol rtol p) := by
  obtain ⟨h, h0⟩ := lexOk_state env henv md hmd hmd' atol rtol p d hd
  unfold readStateText
  rw [lexText_tokText hl h _ le_rfl, Option.bind_some]
  exact (sameToks_norm hl _ h).readState h0

theorem noGt_formatEncoding (n i : ℕ) (e : Encoding) : '>' ∉ formatEncoding n i e := by
  have h : '>' ∉ zeroPad n (pyBin i) := by
    unfold zeroPad pyBin
    rw [List.mem_append, not_or]
    refine ⟨fun h => absurd (List.eq_of_mem_replicate h) (by decide), fun h => ?_⟩
    split_ifs at h
    · revert h; decide
    · obtain ⟨d, -, hd⟩ := List.mem_map.1 h
      revert hd
      split_ifs <;> decide
  unfold formatEncoding
  dsimp only
  split_ifs
  · rwa [List.mem_reverse]
  · exact h

/-- **C72** The characters that `statevec_to_str` writes, for every state vector: they are split in the tokens of the text. -/
theorem C72_statevec_text (env : PpEnv) (henv : env.Valid) (rd : List Char → Option ℝ) (dec : ℝ → List Char) (hl : Literals env rd dec) (md : ℕ)
    (hmd : 0 < md) (hmd' : md ≤ 1000) (p : ℕ) (sv : Statevector) (e : Encoding) (atol : ℝ) :
    readStateText rd (tokText dec (statevecToStr env sv e md atol 0 p)) = readState (statevecToStr env sv e md atol 0 p) := by
  refine C72_text env henv rd dec hl md hmd hmd' atol 0 p _ fun kv hkv => ?_
  unfold Statevector.toDict at hkv
  rw [toDictMap_eq] at hkv
  obtain ⟨i, -, rfl⟩ := List.mem_map.1 hkv
  exact noGt_formatEncoding _ _ _

/-! ### A library that meets the assumptions -/

/-- Fractions as in `exPp`; decimals are rounded to an integer, towards zero. -/
noncomputable def intPp : PpEnv where
  lim := exPp.lim
  fmt _ x := if x < 0 then -(⌊-x⌋₊ : ℝ) else ⌊x⌋₊

theorem intPp_valid : intPp.Valid := ⟨exPp_valid.den_le, exPp_valid.exact, exPp_valid.nonneg⟩

/-- The text of an integer, and the reader of texts of digits. -/
noncomputable def intDec (x : ℝ) : List Char := Nat.toDigits 10 ⌊x⌋₊

noncomputable def intRd (s : List Char) : Option ℝ := some (Nat.ofDigitChars 10 s 0 : ℕ)

theorem intPp_abs (p : ℕ) (x : ℝ) : ∃ n : ℕ, |intPp.fmt p x| = n := by
  unfold intPp
  dsimp only
  split_ifs
  · exact ⟨_, by rw [abs_neg, Nat.abs_cast]⟩
  · exact ⟨_, Nat.abs_cast _⟩

theorem intLiterals : Literals intPp intRd intDec := by
  refine ⟨fun p x => ?_, fun p x => ?_, fun s _ _ => rfl⟩
  · exact decShape_toDigits _
  · obtain ⟨n, hn⟩ := intPp_abs p x
    rw [hn]
    unfold intRd intDec
    rw [Nat.floor_natCast, Nat.ofDigitChars_toDigits (by norm_num) (by norm_num)]

theorem intPp_rounds (p : ℕ) : intPp.Rounds p 1 := by
  intro x
  unfold intPp
  dsimp only
  rw [one_mul]
  split_ifs with h
  · have h1 := Nat.floor_le (neg_nonneg.2 h.le)
    have h2 : (0 : ℝ) ≤ (⌊-x⌋₊ : ℝ) := Nat.cast_nonneg _
    rw [abs_of_neg h, abs_of_nonneg (by linarith)]
    linarith
  · have h1 := Nat.floor_le (not_lt.1 h)
    have h2 : (0 : ℝ) ≤ (⌊x⌋₊ : ℝ) := Nat.cast_nonneg _
    rw [abs_of_nonneg (not_lt.1 h), abs_of_nonpos (by linarith)]
    linarith

theorem intDec_text : DecText intDec := fun _ => toDigits_solid _

example (z : ℂ) : ∃ w, readText intRd (tokText intDec (complexToStr intPp z 1000 (1 / 10 ^ 9) 0 4)) = some w := by
  obtain ⟨w, h, -⟩ := C71_text_close intPp intPp_valid intRd intDec intLiterals 1000 (by norm_num) le_rfl (1 / 10 ^ 9) (by positivity) 4 1
    (intPp_rounds 4) z
  exact ⟨w, h⟩

/-- A state of one qubit: `|0> + 2|1>`. -/
example : readStateText intRd (tokText intDec (dictToStr intPp [(['0'], 1), (['1'], 2)] 1000 0 0 4)) = some [(['0'], 1), (['1'], 2)] := by
  rw [C72_text intPp intPp_valid intRd intDec intLiterals 1000 (by norm_num) le_rfl 0 0 4 _ (by simp)]
  refine C72_state_exact intPp intPp_valid 1000 (by norm_num) le_rfl 4 1 (intPp_rounds 4) _ (fun kv hkv => ?_) (fun h => ?_)
  · simp only [List.mem_cons, List.not_mem_nil, or_false] at hkv
    rcases hkv with rfl | rfl
    · exact ⟨⟨1, by decide +kernel, Or.inl (by simp)⟩, ⟨0, by decide +kernel, Or.inl (by simp)⟩⟩
    · exact ⟨⟨2, by decide +kernel, Or.inl (by simp)⟩, ⟨0, by decide +kernel, Or.inl (by simp)⟩⟩
  · have := h (['0'], 1) (by simp) (['1'], 2) (by simp)
    simp at this

example : ∃ cell : ℕ → ℕ → List Char, readGrid (densityMatrixToStr intPp intDec ⟨⟨2, 2, fun _ _ => 1 / 2⟩⟩ 1000 (1 / 10 ^ 9) 0 4) =
    some [[cell 0 0, cell 0 1], [cell 1 0, cell 1 1]] := by
  obtain ⟨cell, h, -⟩ := C80_text intPp intPp_valid intRd intDec intDec_text intLiterals 1000 (by norm_num) le_rfl (1 / 10 ^ 9) (by positivity) 4 1
    (intPp_rounds 4) ⟨⟨2, 2, fun _ _ => 1 / 2⟩⟩ (by decide)
  exact ⟨cell, h⟩

end Graphix
