import Verif.Model.PrintState
import Verif.Spec.PrintedState
import Verif.Props.PrettyPrint
import Verif.Props.Readout
import Mathlib.NumberTheory.Niven
import Mathlib.NumberTheory.Real.Irrational

/-!
# C72: printed states
-/

namespace Graphix

open scoped Classical

/-! ### The shape of printed numbers -/

/-- A token that is not a ket and not an opening parenthesis. -/
def plainTok : PTok → Bool
  | .ket _ => false
  | .lpar => false
  | _ => true

/-- A text that is not empty, with plain tokens and at most one sign at its beginning. -/
def SignedForm (l : List PTok) : Prop :=
  ∃ m, (l = m ∨ l = .neg :: m) ∧ m ≠ [] ∧ m.head? ≠ some .neg ∧ m.all plainTok = true

theorem SignedForm.append {l x : List PTok} (h : SignedForm l) (hx : x.all plainTok = true) : SignedForm (l ++ x) := by
  obtain ⟨m, h1, h2, h3, h4⟩ := h
  refine ⟨m ++ x, ?_, by simp [h2], ?_, by rw [List.all_append, h4, hx]; rfl⟩
  · rcases h1 with rfl | rfl
    · exact Or.inl rfl
    · exact Or.inr rfl
  · cases m with
    | nil => exact absurd rfl h2
    | cons a m => exact h3

theorem SignedForm.ne {l : List PTok} (h : SignedForm l) : l ≠ [] := by
  obtain ⟨m, rfl | rfl, h2, -, -⟩ := h
  · exact h2
  · simp

theorem SignedForm.plain {l : List PTok} (h : SignedForm l) : l.all plainTok = true := by
  obtain ⟨m, rfl | rfl, -, -, h4⟩ := h
  · exact h4
  · simp [h4, plainTok]

theorem SignedForm.neg {r : List PTok} (h : SignedForm (.neg :: r)) : r ≠ [] ∧ r.head? ≠ some .neg ∧ r.all plainTok = true := by
  obtain ⟨m, h1 | h1, h2, h3, h4⟩ := h
  · subst h1; exact absurd rfl h3
  · obtain rfl := List.tail_eq_of_cons_eq h1
    exact ⟨h2, h3, h4⟩

theorem signedForm_signStr (s : ℤ) {m : List PTok} (h : m ≠ []) (h2 : m.head? ≠ some .neg) (h3 : m.all plainTok = true) :
    SignedForm (signStr s ++ m) := by
  unfold signStr
  split_ifs
  · exact ⟨m, Or.inr rfl, h, h2, h3⟩
  · exact ⟨m, Or.inl rfl, h, h2, h3⟩

theorem signedForm_renderReal (s : ℤ) (i d : ℕ) : SignedForm (renderReal s i d) := by
  unfold renderReal sqrtStr
  simp only
  split_ifs
  all_goals first
    | exact ⟨[.nat 0], Or.inl rfl, by simp, by simp, rfl⟩
    | exact signedForm_signStr s (by simp) (by simp) (by simp [plainTok])
    | (rw [List.append_assoc]; exact signedForm_signStr s (by simp) (by simp) (by simp [plainTok]))

theorem signedForm_renderImaginary (s : ℤ) (i d : ℕ) : SignedForm (renderImaginary s i d) := by
  unfold renderImaginary sqrtStr
  simp only
  split_ifs
  all_goals first
    | exact signedForm_signStr s (by simp) (by simp) (by simp [plainTok])
    | (rw [List.append_assoc]; exact signedForm_signStr s (by simp) (by simp) (by simp [plainTok]))

theorem signedForm_decToks (v : ℝ) : SignedForm (decToks v) := by
  unfold decToks
  split_ifs
  · exact ⟨[.dec (-v)], Or.inr rfl, by simp, by simp, rfl⟩
  · exact ⟨[.dec v], Or.inl rfl, by simp, by simp, rfl⟩

theorem signedForm_real {env : PpEnv} {x : ℝ} {md : ℕ} {atol rtol : ℝ} {l : List PTok} (h : realToStr env x md atol rtol = some l) :
    SignedForm l := by
  unfold realToStr at h
  rw [Option.map_eq_some_iff] at h
  obtain ⟨⟨s, i, d⟩, -, rfl⟩ := h
  exact signedForm_renderReal _ _ _

theorem plain_angle (env : PpEnv) (a : ℝ) : (angleToStr env a).all plainTok = true := by
  unfold angleToStr decToks signStr
  simp only
  split_ifs <;> first | rfl | (split <;> rfl)

theorem signedForm_exponential {env : PpEnv} {z : ℂ} {md : ℕ} {atol rtol : ℝ} {l : List PTok}
    (h : exponentialToStr env z md atol rtol = some l) : SignedForm l := by
  unfold exponentialToStr at h
  cases ha : recognizeAngle env z.arg md atol rtol with
  | none => rw [ha] at h; cases h
  | some q =>
    rw [ha] at h
    simp only at h
    by_cases h0 : q = 0
    · rw [if_pos h0] at h; cases h
    rw [if_neg h0] at h
    cases hr : realToStr env ‖z‖ md atol rtol with
    | none => rw [hr] at h; cases h
    | some radius =>
      rw [hr] at h
      dsimp only at h
      have hs : (if q < 0 then [PTok.neg] else []).all plainTok = true := by split_ifs <;> rfl
      generalize (if q < 0 then [PTok.neg] else []) = sg at h hs
      have hp : (PTok.expo :: sg ++ [PTok.imag, PTok.times] ++ angleToStr env ((|q| : ℚ) : ℝ) ++ [PTok.rpar]).all plainTok = true := by
        rw [List.all_append, List.all_append, plain_angle, List.cons_append, List.all_cons, List.all_append, hs]
        rfl
      split_ifs at h with h1
      · obtain rfl := Option.some.inj h
        exact ⟨_, Or.inl rfl, by simp, by simp, hp⟩
      · obtain rfl := Option.some.inj h
        exact ((signedForm_real hr).append (x := [.times]) rfl).append hp

theorem signedForm_cartesian {env : PpEnv} {re im : ℝ} {md : ℕ} {atol rtol : ℝ} {l : List PTok}
    (h : cartesianToStr env re im md atol rtol = some l) : SignedForm l ∧ needsParentheses l = true := by
  unfold cartesianToStr at h
  cases hr : realToStr env re md atol rtol with
  | none => rw [hr] at h; cases h
  | some reStr =>
    cases hi : recognizeSqrt env im md atol rtol with
    | none => rw [hr, hi] at h; cases h
    | some r =>
      obtain ⟨s, i, d⟩ := r
      rw [hr, hi] at h
      dsimp only at h
      obtain rfl := Option.some.inj h
      refine ⟨((signedForm_real hr).append (by split_ifs <;> rfl)).append ?_, ?_⟩
      · split_ifs
        · rfl
        · rw [List.all_append, (signedForm_renderReal _ _ _).plain]; rfl
      · unfold needsParentheses
        rw [List.any_append, List.any_append]
        split_ifs <;> simp

theorem signedForm_decimal (env : PpEnv) (z : ℂ) (p : ℕ) (atol : ℝ) : SignedForm (decimalToStr env z p atol) := by
  unfold decimalToStr
  split_ifs
  · exact signedForm_decToks _
  · exact (signedForm_decToks _).append rfl
  · exact ((signedForm_decToks _).append rfl).append rfl
  · exact ((signedForm_decToks _).append rfl).append rfl

/-- The text is one term. -/
def OneTerm (l : List PTok) : Prop := ∃ a, readTerm l = some (a, [])

theorem oneTerm_of_signed {l : List PTok} {a : ℂ} (hne : l ≠ []) (h : readSigned l = (a, [])) : OneTerm l := by
  refine ⟨a, ?_⟩
  unfold readTerm
  rw [if_neg hne, h]

theorem oneTerm_decToks (v : ℝ) : OneTerm (decToks v) :=
  oneTerm_of_signed (a := v) (signedForm_decToks v).ne (by have := read_decToks v []; rwa [List.append_nil] at this)

/-- The shape of every printed number. -/
theorem complexToStr_shape (env : PpEnv) (henv : env.Valid) (md : ℕ) (hmd : 0 < md) (hmd' : md ≤ 1000) (atol : ℝ) (p : ℕ) (z : ℂ) :
    SignedForm (complexToStr env z md atol 0 p) ∧
    (OneTerm (complexToStr env z md atol 0 p) ∨
      (needsParentheses (complexToStr env z md atol 0 p) = true ∧ atol < |z.re| ∧ atol < |z.im| ∧
        (exponentialToStr env z md atol 0 = none ∨ ¬ Isclose 0 atol ‖z‖ 1)) ∨
      (atol < |z.re| ∧ atol < |z.im| ∧ exponentialToStr env z md atol 0 = none ∧
        (recognizeSqrt env z.re md atol 0 = none ∨ recognizeSqrt env z.im md atol 0 = none))) := by
  have hexp : ∀ e, exponentialToStr env z md atol 0 = some e → SignedForm e ∧ OneTerm e := by
    intro e he
    obtain ⟨q, s, i, d, -, -, h3⟩ := read_exponential henv hmd hmd' he
    exact ⟨signedForm_exponential he, _, h3⟩
  unfold complexToStr
  split_ifs with h1 h2 h3
  · exact ⟨⟨[.nat 0], Or.inl rfl, by simp, by simp, rfl⟩, Or.inl (oneTerm_of_signed (a := 0) (by simp) (by simp [readSigned, readFactors]))⟩
  · cases hr : realToStr env z.re md atol 0 with
    | none =>
      refine ⟨signedForm_decimal _ _ _ _, Or.inl ?_⟩
      change OneTerm (decimalToStr env z p atol)
      unfold decimalToStr
      rw [if_pos h2]
      exact oneTerm_decToks _
    | some l =>
      obtain ⟨s, i, d, r1, r2, r3⟩ := read_real hr
      exact ⟨signedForm_real hr, Or.inl (oneTerm_of_signed r2 (by have := r3 []; rwa [List.append_nil] at this))⟩
  · cases hr : imaginaryToStr env z.im md atol 0 with
    | none =>
      refine ⟨signedForm_decimal _ _ _ _, Or.inl ?_⟩
      change OneTerm (decimalToStr env z p atol)
      unfold decimalToStr
      rw [if_neg h2, if_pos h3]
      exact oneTerm_of_signed (by simp) (by rw [read_decToks]; rfl)
    | some l =>
      unfold imaginaryToStr at hr
      rw [Option.map_eq_some_iff] at hr
      obtain ⟨⟨s, i, d⟩, -, rfl⟩ := hr
      refine ⟨signedForm_renderImaginary _ _ _, Or.inl (oneTerm_of_signed (signedForm_renderImaginary _ _ _).ne (a := ((rootValue s i d : ℝ) : ℂ) * Complex.I) ?_)⟩
      have := read_renderImaginary s i d []
      rwa [List.append_nil] at this
  · dsimp only
    have hdec : cartesianToStr env z.re z.im md atol 0 = none →
        recognizeSqrt env z.re md atol 0 = none ∨ recognizeSqrt env z.im md atol 0 = none := by
      intro hc
      cases hr : recognizeSqrt env z.re md atol 0 with
      | none => exact Or.inl rfl
      | some r =>
        cases hi : recognizeSqrt env z.im md atol 0 with
        | none => exact Or.inr rfl
        | some r' =>
          unfold cartesianToStr realToStr at hc
          rw [hr, hi] at hc
          simp at hc
    cases he : exponentialToStr env z md atol 0 with
    | none =>
      dsimp only
      cases hc : cartesianToStr env z.re z.im md atol 0 with
      | none => exact ⟨signedForm_decimal _ _ _ _, Or.inr (Or.inr ⟨not_le.1 h3, not_le.1 h2, rfl, hdec hc⟩)⟩
      | some c => exact ⟨(signedForm_cartesian hc).1, Or.inr (Or.inl ⟨(signedForm_cartesian hc).2, not_le.1 h3, not_le.1 h2, Or.inl rfl⟩)⟩
    | some e =>
      by_cases hi : Isclose 0 atol ‖z‖ 1
      · rw [decide_eq_true hi]
        exact ⟨(hexp e he).1, Or.inl (hexp e he).2⟩
      · rw [decide_eq_false hi]
        dsimp only
        cases hc : cartesianToStr env z.re z.im md atol 0 with
        | none => exact ⟨(hexp e he).1, Or.inl (hexp e he).2⟩
        | some c => exact ⟨(signedForm_cartesian hc).1, Or.inr (Or.inl ⟨(signedForm_cartesian hc).2, not_le.1 h3, not_le.1 h2, Or.inr hi⟩)⟩

/-! ### Signs -/

theorem readFactors_mul (x acc : ℂ) (l : List PTok) : readFactors (x * acc) l = (x * (readFactors acc l).1, (readFactors acc l).2) := by
  induction acc, l using readFactors.induct with
  | _ => simp_all [readFactors, mul_assoc, mul_div_assoc]

theorem readTerm_neg {r : List PTok} (hne : r ≠ []) (hh : r.head? ≠ some .neg) {a : ℂ} (h : readTerm (.neg :: r) = some (a, [])) :
    readTerm r = some (-a, []) := by
  have h1 : readSigned r = readFactors 1 r := by
    cases r with
    | nil => exact absurd rfl hne
    | cons t r => cases t <;> first | rfl | exact absurd rfl hh
  have h2 : readSigned (.neg :: r) = (-(readFactors 1 r).1, (readFactors 1 r).2) := by
    change readFactors (-1) r = _
    have := readFactors_mul (-1) 1 r
    rw [mul_one, neg_one_mul] at this
    exact this
  unfold readTerm at h ⊢
  rw [if_neg (by simp), h2] at h
  rw [if_neg hne, h1]
  generalize readFactors 1 r = x at h ⊢
  obtain ⟨b, l⟩ := x
  dsimp only at h ⊢
  split at h
  · rename_i heq
    simp only [Prod.mk.injEq] at heq
    obtain ⟨rfl, rfl⟩ := heq
    dsimp only
    split at h
    · rename_i heq
      simp only [Option.some.injEq, Prod.mk.injEq] at h ⊢
      exact ⟨by rw [← h.1]; ring, h.2⟩
    · cases h
  · rename_i hno heq
    simp only [Prod.mk.injEq] at heq
    obtain ⟨rfl, rfl⟩ := heq
    simp only [Option.some.injEq, Prod.mk.injEq] at h
    obtain ⟨h3, rfl⟩ := h
    simp only [Option.some.injEq, Prod.mk.injEq, and_true]
    rw [← h3, neg_neg]

/-! ### Coefficients -/

/-- The tokens of a coefficient in front of its ket. -/
noncomputable def coefToks (paren : Bool) (c : List PTok) : List PTok :=
  if isOneText c then []
  else if isMinusOneText c then [.neg]
  else if paren = true ∧ needsParentheses c = true then [PTok.lpar] ++ c ++ [.rpar]
  else c

theorem termToks_eq (paren : Bool) (c : List PTok) (k : List Char) : termToks paren c k = coefToks paren c ++ [.ket k] := by
  unfold termToks coefToks
  split_ifs <;> simp

/-- The coefficient reads as `w`, also when its sign is in the connector. -/
structure GoodCoef (c : List PTok) (w : ℂ) : Prop where
  noKet : ∀ k, PTok.ket k ∉ c
  read : readCoef c = some w
  neg : ∀ r, c = .neg :: r → readCoef r = some (-w)

theorem plain_noKet {l : List PTok} (h : l.all plainTok = true) (k : List Char) : PTok.ket k ∉ l := by
  intro hk
  have := List.all_eq_true.1 h _ hk
  cases this

theorem readCoef_term {l : List PTok} {a : ℂ} (hne : l ≠ []) (hn : l ≠ [.neg]) (hp : l.all plainTok = true) (h : readTerm l = some (a, [])) :
    readCoef l = some a := by
  unfold readCoef
  split
  · exact absurd rfl hne
  · exact absurd rfl hn
  · cases hp
  · rw [h]

theorem goodCoef_coefToks {paren : Bool} {l : List PTok} {w : ℂ} (hs : SignedForm l) (h : OneTerm l ∨ (paren = true ∧ needsParentheses l = true))
    (hw : readNumber l = some w) : GoodCoef (coefToks paren l) w := by
  have hone : ∀ l' w', isOneText l' → readNumber l' = some w' → w' = 1 := by
    intro l' w' h1 h2
    unfold isOneText at h1
    split at h1
    · subst h1
      simp [readNumber, readTerm, readSigned, readFactors] at h2
      exact h2.symm
    · subst h1
      simp [readNumber, readTerm, readSigned, readFactors] at h2
      exact h2.symm
    · exact h1.elim
  have hmone : ∀ l' w', isMinusOneText l' → readNumber l' = some w' → w' = -1 := by
    intro l' w' h1 h2
    unfold isMinusOneText at h1
    split at h1
    · unfold isOneText at h1
      split at h1
      · subst h1
        simp [readNumber, readTerm, readSigned, readFactors] at h2
        exact h2.symm
      · subst h1
        simp [readNumber, readTerm, readSigned, readFactors] at h2
        exact h2.symm
      · exact h1.elim
    · exact h1.elim
  unfold coefToks
  split_ifs with h1 h2 h3
  · exact ⟨by simp, by rw [hone l w h1 hw]; rfl, fun r hr => by cases hr⟩
  · refine ⟨by simp, by rw [hmone l w h2 hw]; rfl, fun r hr => ?_⟩
    cases hr
    rw [hmone l w h2 hw, neg_neg]; rfl
  · refine ⟨fun k => ?_, ?_, fun r hr => by cases hr⟩
    · have := plain_noKet hs.plain k
      simp [this]
    · have e : [PTok.lpar] ++ l ++ [PTok.rpar] = .lpar :: (l ++ [.rpar]) := rfl
      rw [e]
      simp [readCoef, hw]
  · have ho : OneTerm l := h.resolve_right h3
    obtain ⟨a, ha⟩ := ho
    have : a = w := by
      rw [readNumber_of_term ha] at hw
      exact Option.some.inj hw
    subst this
    refine ⟨plain_noKet hs.plain, readCoef_term hs.ne ?_ hs.plain ha, fun r hr => ?_⟩
    · rintro rfl
      exact hs.neg.1 rfl
    · subst hr
      obtain ⟨n1, n2, n3⟩ := hs.neg
      refine readCoef_term n1 ?_ n3 (readTerm_neg n1 n2 ha)
      rintro rfl
      exact n2 rfl

/-! ### Sums of kets -/

theorem readKets_coef (sgn : ℂ) (c0 c l : List PTok) (h : ∀ k, PTok.ket k ∉ c) : readKets sgn c0 (c ++ l) = readKets sgn (c0 ++ c) l := by
  induction c generalizing c0 with
  | nil => simp
  | cons t c ih =>
    have h2 : ∀ k, PTok.ket k ∉ c := fun k hk => h k (List.mem_cons_of_mem _ hk)
    have : readKets sgn c0 (t :: c ++ l) = readKets sgn (c0 ++ [t]) (c ++ l) := by
      cases t <;> first | rfl | exact absurd List.mem_cons_self (h _)
    rw [this, ih _ h2, List.append_assoc]
    rfl

theorem readKets_join (ts : List (List Char × List PTok × ℂ)) (hts : ∀ t ∈ ts, GoodCoef t.2.1 t.2.2) :
    ∀ (sgn : ℂ) (k : List Char) (c : List PTok) (w : ℂ), (∀ k, PTok.ket k ∉ c) → readCoef c = some w →
    readKets sgn [] (c ++ [.ket k] ++ (ts.map fun t => t.2.1 ++ [.ket t.1]).flatMap connectTerm) =
      some ((k, sgn * w) :: ts.map fun t => (t.1, t.2.2)) := by
  induction ts with
  | nil =>
    intro sgn k c w h1 h2
    rw [List.append_assoc, readKets_coef _ _ _ _ h1]
    simp [readKets, h2]
  | cons t ts ih =>
    intro sgn k c w h1 h2
    have ht := hts t List.mem_cons_self
    have ih' := ih fun t ht => hts t (List.mem_cons_of_mem _ ht)
    rw [List.append_assoc, readKets_coef _ _ _ _ h1]
    simp only [List.nil_append, List.map_cons, List.flatMap_cons]
    by_cases hn : ∃ r, t.2.1 = .neg :: r
    · obtain ⟨r, hr⟩ := hn
      have e : connectTerm (t.2.1 ++ [.ket t.1]) = .sub :: (r ++ [.ket t.1]) := by rw [hr]; rfl
      rw [e]
      have hk : ∀ k, PTok.ket k ∉ r := fun k hk => ht.noKet k (by rw [hr]; exact List.mem_cons_of_mem _ hk)
      have := ih' (-1) t.1 r (-t.2.2) hk (ht.neg r hr)
      change (readCoef c).bind (fun a => (readKets (-1) [] _).map fun r => (k, sgn * a) :: r) = _
      rw [h2, Option.bind_some]
      erw [this]
      simp
    · have e : connectTerm (t.2.1 ++ [.ket t.1]) = .add :: (t.2.1 ++ [.ket t.1]) := by
        unfold connectTerm
        split
        · rename_i t' heq
          cases hc : t.2.1 with
          | nil => rw [hc] at heq; cases heq
          | cons a l =>
            rw [hc] at heq
            refine absurd ⟨l, ?_⟩ hn
            rw [hc]
            rw [List.cons_append] at heq
            rw [(List.cons.inj heq).1]
        · rfl
      rw [e]
      have := ih' 1 t.1 t.2.1 t.2.2 ht.noKet ht.read
      change (readCoef c).bind (fun a => (readKets 1 [] _).map fun r => (k, sgn * a) :: r) = _
      rw [h2, Option.bind_some]
      erw [this]
      simp

theorem readKets_joinTerms (ts : List (List Char × List PTok × ℂ)) (hts : ∀ t ∈ ts, GoodCoef t.2.1 t.2.2) (hne : ts ≠ []) :
    readKets 1 [] (joinTerms (ts.map fun t => t.2.1 ++ [.ket t.1])) = some (ts.map fun t => (t.1, t.2.2)) := by
  cases ts with
  | nil => exact absurd rfl hne
  | cons t ts =>
    have ht := hts t List.mem_cons_self
    rw [List.map_cons]
    have := readKets_join ts (fun t ht => hts t (List.mem_cons_of_mem _ ht)) 1 t.1 t.2.1 t.2.2 ht.noKet ht.read
    unfold joinTerms
    rw [this, one_mul]
    rfl

theorem splitFactor_plain (c0 c l : List PTok) (h : c.all plainTok = true) : splitFactor c0 (c ++ l) = splitFactor (c0 ++ c) l := by
  induction c generalizing c0 with
  | nil => simp
  | cons t c ih =>
    rw [List.all_cons, Bool.and_eq_true] at h
    have : splitFactor c0 (t :: c ++ l) = splitFactor (c0 ++ [t]) (c ++ l) := by
      cases t <;> first | rfl | (exact absurd h.1 (by simp [plainTok]))
    rw [this, ih _ h.2, List.append_assoc]
    rfl

theorem readState_eq {l : List PTok} (h : l ≠ [.nat 0]) : readState l =
    match splitFactor [] l with
    | none => readKets 1 [] l
    | some (r, body) =>
      match body.getLast? with
      | some .rpar => (readNumber r).bind fun a => (readKets 1 [] body.dropLast).map fun m => m.map fun kv => (kv.1, a * kv.2)
      | _ => none := by
  unfold readState
  split
  · exact absurd rfl h
  · rfl

theorem splitFactor_coef (paren : Bool) {c : List PTok} (h : SignedForm c) (k : List Char) (l : List PTok) :
    splitFactor [] (coefToks paren c ++ .ket k :: l) = none := by
  unfold coefToks
  split_ifs
  · rfl
  · rfl
  · rfl
  · rw [splitFactor_plain _ _ _ h.plain]
    rfl

/-! ### C72 -/

/-- The number that a reader finds in the text of a number. -/
noncomputable def printedValue (env : PpEnv) (md : ℕ) (atol : ℝ) (p : ℕ) (z : ℂ) : ℂ := (readNumber (complexToStr env z md atol 0 p)).getD 0

/-- **C72** The text of a state (any list of kets with their amplitudes): when every amplitude is printed as one term, or as a sum that the code puts in
parentheses, and, when the moduli are the same, every phase as one term, a reader finds the kets in order, each with the coefficient that `complex_to_str` prints for its amplitude, or
with the product of the common modulus and of its phase. -/
theorem C72_state_to_str (env : PpEnv) (henv : env.Valid) (md : ℕ) (hmd : 0 < md) (hmd' : md ≤ 1000) (atol : ℝ) (ha : 0 ≤ atol) (p : ℕ) (u : ℝ)
    (hu : env.Rounds p u) (d : List (List Char × ℂ))
    (hc : ∀ kv ∈ d, OneTerm (complexToStr env kv.2 md atol 0 p) ∨ needsParentheses (complexToStr env kv.2 md atol 0 p) = true)
    (hp : ∀ a ∈ d.head?, ‖a.2‖ ≠ 0 → (∀ kv ∈ d, Isclose 0 atol ‖kv.2‖ ‖a.2‖) → ∀ kv ∈ d, OneTerm (complexToStr env (kv.2 / ((‖a.2‖ : ℝ) : ℂ)) md atol 0 p)) :
    readState (dictToStr env d md atol 0 p) = some (d.map fun kv => (kv.1, printedValue env md atol p kv.2)) ∨
    ∃ a ∈ d.head?, ‖a.2‖ ≠ 0 ∧ (∀ kv ∈ d, Isclose 0 atol ‖kv.2‖ ‖a.2‖) ∧
      readState (dictToStr env d md atol 0 p) = some (d.map fun kv =>
        (kv.1, printedValue env md atol p ((‖a.2‖ : ℝ) : ℂ) * printedValue env md atol p (kv.2 / ((‖a.2‖ : ℝ) : ℂ)))) := by
  have hval : ∀ z, readNumber (complexToStr env z md atol 0 p) = some (printedValue env md atol p z) := by
    intro z
    obtain ⟨w, hw, -⟩ := C71_complex_to_str env henv md hmd hmd' atol ha p u hu z
    unfold printedValue
    rw [hw]; rfl
  have hsf : ∀ z, SignedForm (complexToStr env z md atol 0 p) := fun z => (complexToStr_shape env henv md hmd hmd' atol p z).1
  unfold dictToStr
  by_cases hd : d = []
  · subst hd
    left
    rfl
  rw [if_neg hd]
  cases hfu : factorUniform env d md atol 0 p with
  | none =>
    left
    rw [Option.getD_none]
    set ts := d.map fun kv => (kv.1, coefToks true (complexToStr env kv.2 md atol 0 p), printedValue env md atol p kv.2) with hts
    have e : (d.map fun kv => termToks true (complexToStr env kv.2 md atol 0 p) kv.1) = ts.map fun t => t.2.1 ++ [.ket t.1] := by
      rw [hts, List.map_map]
      exact List.map_congr_left fun kv _ => termToks_eq _ _ _
    have hgood : ∀ t ∈ ts, GoodCoef t.2.1 t.2.2 := by
      intro t ht
      obtain ⟨kv, hkv, rfl⟩ := List.mem_map.1 ht
      exact goodCoef_coefToks (hsf _) ((hc kv hkv).imp id fun h => ⟨rfl, h⟩) (hval _)
    rw [e]
    have hne : ts ≠ [] := by simpa [hts] using hd
    have hr := readKets_joinTerms ts hgood hne
    have e2 : splitFactor [] (joinTerms (ts.map fun t => t.2.1 ++ [.ket t.1])) = none := by
      rw [hts]
      cases d with
      | nil => exact absurd rfl hd
      | cons kv d =>
        simp only [List.map_cons, joinTerms]
        rw [List.append_assoc]
        exact splitFactor_coef true (hsf _) _ _
    have e3 : joinTerms (ts.map fun t => t.2.1 ++ [PTok.ket t.1]) ≠ [.nat 0] := by
      intro h0
      rw [h0] at hr
      cases hr
    rw [readState_eq e3, e2]
    dsimp only
    rw [hr, hts, List.map_map]
    rfl
  | some text =>
    right
    rw [Option.getD_some]
    unfold factorUniform at hfu
    match d, hd, hc, hp, hfu with
    | [], hd, _, _, _ => exact absurd rfl hd
    | [_], _, _, _, hfu => cases hfu
    | a :: b :: d', _, _, hp, hfu =>
      obtain ⟨ka, va⟩ := a
      dsimp only at hfu
      split_ifs at hfu with h1 h2
      push Not at h1
      obtain rfl := Option.some.inj hfu
      refine ⟨(ka, va), rfl, h1.1, h1.2, ?_⟩
      have hp' := hp (ka, va) rfl h1.1 h1.2
      dsimp only at hp' ⊢
      set D := (ka, va) :: b :: d' with hD
      set r : ℂ := ((‖va‖ : ℝ) : ℂ) with hr
      set ts := D.map fun kv => (kv.1, coefToks false (complexToStr env (kv.2 / r) md atol 0 p), printedValue env md atol p (kv.2 / r)) with hts
      have e : (D.map fun kv => termToks false (complexToStr env (kv.2 / r) md atol 0 p) kv.1) = ts.map fun t => t.2.1 ++ [.ket t.1] := by
        rw [hts, List.map_map]
        exact List.map_congr_left fun kv _ => termToks_eq _ _ _
      have hgood : ∀ t ∈ ts, GoodCoef t.2.1 t.2.2 := by
        intro t ht
        obtain ⟨kv, hkv, rfl⟩ := List.mem_map.1 ht
        exact goodCoef_coefToks (hsf _) (Or.inl (hp' kv hkv)) (hval _)
      rw [e]
      have hne : ts ≠ [] := by rw [hts, hD, List.map_cons]; exact List.cons_ne_nil _ _
      have hrd := readKets_joinTerms ts hgood hne
      generalize hJ : joinTerms (ts.map fun t => t.2.1 ++ [PTok.ket t.1]) = J at hrd
      have e2 : splitFactor [] (complexToStr env r md atol 0 p ++ [.lpar] ++ J ++ [.rpar]) = some (complexToStr env r md atol 0 p, J ++ [.rpar]) := by
        rw [List.append_assoc, List.append_assoc, splitFactor_plain _ _ _ (hsf r).plain]
        have := (hsf r).ne
        generalize complexToStr env r md atol 0 p = x at this
        cases x with
        | nil => exact absurd rfl this
        | cons t x => rfl
      have e3 : complexToStr env r md atol 0 p ++ [.lpar] ++ J ++ [.rpar] ≠ [.nat 0] := by
        intro h0
        have := congrArg List.getLast? h0
        rw [List.getLast?_concat] at this
        cases this
      rw [readState_eq e3, e2]
      dsimp only
      rw [List.getLast?_concat]
      dsimp only
      rw [List.dropLast_concat, hval, hrd, Option.bind_some, Option.map_some, hts, List.map_map, List.map_map]
      rfl

/-! ### Zero tolerance -/

/-- A fraction, or a square root of a fraction (with a sign), with a denominator at most `md`. -/
def NiceReal (md : ℕ) (x : ℝ) : Prop := ∃ q : ℚ, q.den ≤ md ∧ (x = q ∨ x * x = q)

theorem isclose_zero {a b : ℝ} : Isclose 0 0 a b ↔ a = b := by
  unfold Isclose
  rw [zero_mul, max_self, abs_nonpos_iff, sub_eq_zero]

theorem niceReal_natCast {md : ℕ} (hmd : 0 < md) (n : ℕ) : NiceReal md n := ⟨n, by rw [Rat.den_natCast]; exact hmd, Or.inl (by simp)⟩

/-- A number of modulus 1 whose argument is a fraction of `π` is printed as one term that reads as the number. -/
theorem phase_exact (env : PpEnv) (henv : env.Valid) (md : ℕ) (hmd : 0 < md) (hmd' : md ≤ 1000) (p : ℕ) (u : ℝ) (hu : env.Rounds p u) (z : ℂ)
    (h1 : ‖z‖ = 1) (hq : ∃ q : ℚ, q.den ≤ md ∧ z.arg = q * Real.pi) :
    OneTerm (complexToStr env z md 0 0 p) ∧ readNumber (complexToStr env z md 0 0 p) = some z := by
  have hsq : z.re * z.re + z.im * z.im = 1 := by
    have := Complex.normSq_eq_norm_sq z
    rw [h1, one_pow, Complex.normSq_apply] at this
    exact this
  have hone : NiceReal md 1 := by simpa using niceReal_natCast hmd 1
  have hzero : NiceReal md 0 := by simpa using niceReal_natCast hmd 0
  have hshape := (complexToStr_shape env henv md hmd hmd' 0 p z).2
  by_cases him : z.im = 0
  · refine ⟨?_, C71_complex_exact env henv md hmd hmd' p u hu z ⟨1, hmd, Or.inr (by simp; nlinarith)⟩ (him ▸ hzero)⟩
    rcases hshape with h | h | h
    · exact h
    · rw [him, abs_zero] at h; exact absurd h.2.2.1 (lt_irrefl _)
    · rw [him, abs_zero] at h; exact absurd h.2.1 (lt_irrefl _)
  by_cases hre : z.re = 0
  · refine ⟨?_, C71_complex_exact env henv md hmd hmd' p u hu z (hre ▸ hzero) ⟨1, hmd, Or.inr (by simp; nlinarith)⟩⟩
    rcases hshape with h | h | h
    · exact h
    · rw [hre, abs_zero] at h; exact absurd h.2.1 (lt_irrefl _)
    · rw [hre, abs_zero] at h; exact absurd h.1 (lt_irrefl _)
  obtain ⟨q, hqd, hqa⟩ := hq
  have hdiv : z.arg / Real.pi = q := by rw [hqa]; field_simp
  have hlim : env.lim md (z.arg / Real.pi) = q := by rw [hdiv]; exact henv.exact md q hqd
  have hrec : recognizeAngle env z.arg md 0 0 = some q := by
    unfold recognizeAngle
    simp only [hlim]
    rw [if_pos (isclose_zero.2 hdiv)]
  have hq0 : q ≠ 0 := by
    rintro rfl
    rw [Rat.cast_zero, zero_mul] at hqa
    exact him ((Complex.arg_eq_zero_iff.1 hqa).2)
  have hrad := (C71_recognize_exact env henv 1 md hmd).1.2 hone
  have hexp : ∃ e, exponentialToStr env z md 0 0 = some e := by
    unfold exponentialToStr realToStr
    rw [hrec, h1]
    dsimp only
    rw [if_neg hq0]
    cases hr : recognizeSqrt env 1 md 0 0 with
    | none => rw [hr] at hrad; cases hrad
    | some r =>
      dsimp only [Option.map_some]
      split_ifs <;> exact ⟨_, rfl⟩
  obtain ⟨e, he⟩ := hexp
  have htext : complexToStr env z md 0 0 p = e := by
    unfold complexToStr
    have a1 : ¬ |z.im| ≤ 0 := by rw [abs_nonpos_iff]; exact him
    have a2 : ¬ |z.re| ≤ 0 := by rw [abs_nonpos_iff]; exact hre
    rw [if_neg (fun h => a1 h.2), if_neg a1, if_neg a2]
    dsimp only
    rw [he, decide_eq_true (isclose_zero.2 h1)]
  obtain ⟨q', s, i, d, e1, e2, e3⟩ := read_exponential henv hmd hmd' he
  rw [htext]
  refine ⟨⟨_, e3⟩, ?_⟩
  rw [readNumber_of_term e3, (C71_recognize_exact env henv ‖z‖ md hmd).2 _ _ _ e2, ← isclose_zero.1 e1]
  congr 1
  have : (((z.arg / Real.pi * Real.pi : ℝ)) : ℂ) = (z.arg : ℂ) := by
    rw [div_mul_cancel₀ _ Real.pi_ne_zero]
  rw [this]
  exact Complex.norm_mul_exp_arg_mul_I z

/-- **C72** With zero tolerances, a state whose amplitudes have nice parts is printed exactly, provided that, when all the moduli are the same, the
modulus is nice and the arguments are fractions of `π` with denominators at most `max_denominator`. -/
theorem C72_state_exact (env : PpEnv) (henv : env.Valid) (md : ℕ) (hmd : 0 < md) (hmd' : md ≤ 1000) (p : ℕ) (u : ℝ) (hu : env.Rounds p u)
    (d : List (List Char × ℂ)) (hc : ∀ kv ∈ d, NiceReal md kv.2.re ∧ NiceReal md kv.2.im)
    (hp : (∀ kv ∈ d, ∀ kw ∈ d, ‖kv.2‖ = ‖kw.2‖) → ∀ kv ∈ d, NiceReal md ‖kv.2‖ ∧ ∃ q : ℚ, q.den ≤ md ∧ kv.2.arg = q * Real.pi) :
    readState (dictToStr env d md 0 0 p) = some d := by
  have hphase : ∀ a ∈ d.head?, ‖a.2‖ ≠ 0 → (∀ kv ∈ d, Isclose 0 0 ‖kv.2‖ ‖a.2‖) → ∀ kv ∈ d,
      OneTerm (complexToStr env (kv.2 / ((‖a.2‖ : ℝ) : ℂ)) md 0 0 p) ∧
      readNumber (complexToStr env (kv.2 / ((‖a.2‖ : ℝ) : ℂ)) md 0 0 p) = some (kv.2 / ((‖a.2‖ : ℝ) : ℂ)) := by
    intro a ha hne hsame kv hkv
    have hn := isclose_zero.1 (hsame kv hkv)
    obtain ⟨-, q, hq1, hq2⟩ := hp (fun x hx y hy => (isclose_zero.1 (hsame x hx)).trans (isclose_zero.1 (hsame y hy)).symm) kv hkv
    refine phase_exact env henv md hmd hmd' p u hu _ ?_ ⟨q, hq1, ?_⟩
    · rw [norm_div, Complex.norm_real, norm_norm, hn, div_self hne]
    · have hpos : 0 < ‖a.2‖⁻¹ := inv_pos.2 (lt_of_le_of_ne (norm_nonneg _) (Ne.symm hne))
      rw [← hq2, div_eq_mul_inv, ← Complex.ofReal_inv, mul_comm]
      exact Complex.arg_real_mul _ hpos
  have hshape : ∀ kv ∈ d, OneTerm (complexToStr env kv.2 md 0 0 p) ∨ needsParentheses (complexToStr env kv.2 md 0 0 p) = true := by
    intro kv hkv
    rcases (complexToStr_shape env henv md hmd hmd' 0 p kv.2).2 with h | h | ⟨-, -, -, h⟩
    · exact Or.inl h
    · exact Or.inr h.1
    · have h1 := (C71_recognize_exact env henv _ md hmd).1.2 (hc kv hkv).1
      have h2 := (C71_recognize_exact env henv _ md hmd).1.2 (hc kv hkv).2
      rcases h with h | h
      · rw [h] at h1; cases h1
      · rw [h] at h2; cases h2
  rcases C72_state_to_str env henv md hmd hmd' 0 le_rfl p u hu d hshape (fun a ha hne hs kv hkv => (hphase a ha hne hs kv hkv).1) with
    h | ⟨a, ha, hne, hs, h⟩
  · rw [h]
    congr 1
    refine (List.map_congr_left fun kv hkv => ?_).trans (List.map_id d)
    unfold printedValue
    rw [C71_complex_exact env henv md hmd hmd' p u hu kv.2 (hc kv hkv).1 (hc kv hkv).2]
    rfl
  · rw [h]
    congr 1
    refine (List.map_congr_left fun kv hkv => ?_).trans (List.map_id d)
    have had : a ∈ d := List.mem_of_mem_head? ha
    obtain ⟨hr, -⟩ := hp (fun x hx y hy => (isclose_zero.1 (hs x hx)).trans (isclose_zero.1 (hs y hy)).symm) a had
    unfold printedValue
    rw [(hphase a ha hne hs kv hkv).2, C71_complex_exact env henv md hmd hmd' p u hu ((‖a.2‖ : ℝ) : ℂ) (by rwa [Complex.ofReal_re])
      (by rw [Complex.ofReal_im]; exact ⟨0, hmd, Or.inl (by simp)⟩)]
    dsimp only [Option.getD_some]
    have : ((‖a.2‖ : ℝ) : ℂ) ≠ 0 := by exact_mod_cast hne
    rw [mul_div_cancel₀ _ this]
    rfl

theorem coefOf_eq_get? (d : PyDict (List Char) ℂ) (k : List Char) : coefOf d k = (d.get? k).getD 0 := by
  unfold coefOf
  induction d with
  | nil => rfl
  | cons kv d ih =>
    obtain ⟨k', v⟩ := kv
    rw [List.find?_cons]
    by_cases h : k' = k
    · simp [h, PyDict.get?]
    · simp only [h, decide_false, PyDict.get?, if_false]
      exact ih

/-- **C72** `statevec_to_str` with zero tolerances, for every state vector of at least one qubit with such amplitudes: the coefficient that a reader
finds for each ket is its amplitude. -/
theorem C72_statevec_exact (env : PpEnv) (henv : env.Valid) (md : ℕ) (hmd : 0 < md) (hmd' : md ≤ 1000) (p : ℕ) (u : ℝ) (hu : env.Rounds p u)
    (sv : Statevector) (l : List ℕ) (hl : l.Nodup) (hlen : l.length = sv.nqubit) (hne : l ≠ []) (e : Encoding)
    (hc : ∀ i < 2 ^ sv.nqubit, NiceReal md (sv.psi i).re ∧ NiceReal md (sv.psi i).im)
    (hp : (∀ i < 2 ^ sv.nqubit, ∀ j < 2 ^ sv.nqubit, sv.psi i ≠ 0 → sv.psi j ≠ 0 → ‖sv.psi i‖ = ‖sv.psi j‖) →
      ∀ i < 2 ^ sv.nqubit, NiceReal md ‖sv.psi i‖ ∧ ∃ q : ℚ, q.den ≤ md ∧ (sv.psi i).arg = q * Real.pi) :
    ∃ m, readState (statevecToStr env sv e md 0 0 p) = some m ∧
      ∀ b : Basis, coefOf m (if e = .LSB then (ketChars (l.map b)).reverse else ketChars (l.map b)) = absState l sv.psi b := by
  have hmem : ∀ kv ∈ sv.toDict e 0 0, ∃ i < 2 ^ sv.nqubit, kv.2 = sv.psi i ∧ sv.psi i ≠ 0 := by
    intro kv hkv
    unfold Statevector.toDict at hkv
    rw [toDictMap_eq] at hkv
    obtain ⟨i, hi, rfl⟩ := List.mem_map.1 hkv
    rw [List.mem_filter, List.mem_range] at hi
    refine ⟨i, hi.1, rfl, ?_⟩
    have := hi.2
    simp only [decide_eq_true_eq] at this
    exact fun h => this (by rw [h]; simp)
  have hback : ∀ i < 2 ^ sv.nqubit, sv.psi i ≠ 0 → ∃ kv ∈ sv.toDict e 0 0, kv.2 = sv.psi i := by
    intro i hi h0
    unfold Statevector.toDict
    rw [toDictMap_eq]
    refine ⟨_, List.mem_map.2 ⟨i, ?_, rfl⟩, rfl⟩
    rw [List.mem_filter, List.mem_range]
    refine ⟨hi, decide_eq_true ?_⟩
    rw [norm_le_zero_iff]
    exact h0
  refine ⟨sv.toDict e 0 0, ?_, fun b => ?_⟩
  · refine C72_state_exact env henv md hmd hmd' p u hu _ (fun kv hkv => ?_) (fun hsame kv hkv => ?_)
    · obtain ⟨i, hi, h1, -⟩ := hmem kv hkv
      rw [h1]; exact hc i hi
    · obtain ⟨i, hi, h1, -⟩ := hmem kv hkv
      rw [h1]
      refine hp (fun j hj k hk hj0 hk0 => ?_) i hi
      obtain ⟨kv1, m1, e1⟩ := hback j hj hj0
      obtain ⟨kv2, m2, e2⟩ := hback k hk hk0
      rw [← e1, ← e2]
      exact hsame _ m1 _ m2
  · rw [coefOf_eq_get?]
    have := (C60_to_dict sv l hl hlen hne id e 0 0).1 b
    by_cases h0 : ‖absState l sv.psi b‖ ≤ 0
    · unfold Statevector.toDict
      rw [this.1 h0, norm_le_zero_iff.1 h0]; rfl
    · unfold Statevector.toDict
      rw [this.2 (not_le.1 h0)]; rfl

/-! ### Sums without parentheses -/

theorem readCoef_sum {pre post : List PTok} {t : PTok} {v : ℂ} (hpre : SignedForm pre) (ht : t = .add ∨ t = .sub ∨ t = .pos ∨ t = .neg)
    (h : ∀ rest, readSigned (pre ++ rest) = readFactors v rest) : readCoef (pre ++ t :: post) = none := by
  have h1 : readTerm (pre ++ t :: post) = some (v, t :: post) := by
    unfold readTerm
    rw [if_neg (by simp), h]
    rcases ht with rfl | rfl | rfl | rfl <;> rfl
  unfold readCoef
  split
  · rename_i h0; exact absurd h0 (by simp)
  · rename_i h0
    have := congrArg List.length h0
    have h2 := List.length_pos_iff.2 hpre.ne
    simp at this
    omega
  · rename_i l h0
    have h2 := hpre.plain
    cases pre with
    | nil => exact absurd rfl hpre.ne
    | cons a pre =>
      obtain rfl := (List.cons.inj h0).1
      cases h2
  · rw [h1]

/-- The text of a number that is a sum cannot be a coefficient without parentheses. -/
theorem readCoef_cartesian {env : PpEnv} {re im : ℝ} {md : ℕ} {atol rtol : ℝ} {l : List PTok} (h : cartesianToStr env re im md atol rtol = some l) :
    readCoef l = none := by
  unfold cartesianToStr at h
  cases hr : realToStr env re md atol rtol with
  | none => rw [hr] at h; cases h
  | some reStr =>
    cases hi : recognizeSqrt env im md atol rtol with
    | none => rw [hr, hi] at h; cases h
    | some r =>
      obtain ⟨s, i, d⟩ := r
      rw [hr, hi] at h
      dsimp only at h
      obtain rfl := Option.some.inj h
      obtain ⟨s1, i1, d1, -, -, r3⟩ := read_real hr
      rw [List.append_assoc]
      exact readCoef_sum (signedForm_real hr) (by split_ifs <;> simp) r3

theorem readCoef_decimal (env : PpEnv) {z : ℂ} {p : ℕ} {atol : ℝ} (h1 : atol < |z.re|) (h2 : atol < |z.im|) :
    readCoef (decimalToStr env z p atol) = none := by
  unfold decimalToStr
  rw [if_neg (not_le.2 h2), if_neg (not_le.2 h1), List.append_assoc]
  split_ifs
  · exact readCoef_sum (signedForm_decToks _) (Or.inr (Or.inr (Or.inr rfl))) (read_decToks _)
  · exact readCoef_sum (signedForm_decToks _) (Or.inr (Or.inr (Or.inl rfl))) (read_decToks _)

theorem readKets_bad {c : List PTok} (hk : ∀ k, PTok.ket k ∉ c) (h : readCoef c = none) (sgn : ℂ) (k : List Char) (l : List PTok) :
    readKets sgn [] (c ++ .ket k :: l) = none := by
  rw [readKets_coef _ _ _ _ hk, List.nil_append]
  cases l with
  | nil => simp [readKets, h]
  | cons t l => cases t <;> simp [readKets, h]

theorem not_one_of_sum {c : List PTok} (h : readCoef c = none) : ¬ isOneText c ∧ ¬ isMinusOneText c := by
  constructor
  · intro h1
    unfold isOneText at h1
    split at h1 <;> first | exact h1.elim | (simp [readCoef, readTerm, readSigned, readFactors] at h)
  · intro h1
    unfold isMinusOneText at h1
    split at h1
    · unfold isOneText at h1
      split at h1 <;> first | exact h1.elim | (simp [readCoef, readTerm, readSigned, readFactors] at h)
    · exact h1

/-- The argument of `3/5 + 4/5 i` is not a fraction of `π`. -/
theorem arg_three_four (q : ℚ) : (Complex.mk (3 / 5) (4 / 5)).arg ≠ q * Real.pi := by
  intro h
  have hn : ‖Complex.mk (3 / 5) (4 / 5)‖ = 1 := by
    rw [Complex.norm_eq_sqrt_sq_add_sq]
    norm_num
  have hcos : Real.cos (Complex.mk (3 / 5) (4 / 5)).arg = 3 / 5 := by
    rw [Complex.cos_arg (by rw [← norm_ne_zero_iff, hn]; norm_num), hn]
    norm_num
  have := niven ⟨q, h⟩ ⟨3 / 5, by rw [hcos]; norm_num⟩
  rw [hcos] at this
  simp only [Set.mem_insert_iff, Set.mem_singleton_iff] at this
  norm_num at this

/-- **C72, failure.** The state `((3/5 + 4/5 i) |0> + |1>) / sqrt(2)` is printed with its modulus as a factor and with the phase `3/5 + 4/5i` in front of
the first ket without parentheses: the text is not a sum of kets. -/
theorem C72_bare_sum (env : PpEnv) (henv : env.Valid) (p : ℕ) (u : ℝ) (hu : env.Rounds p u) :
    readState (dictToStr env [(['0'], Complex.mk (3 / 5) (4 / 5) * (Real.sqrt (1 / 2) : ℝ)), (['1'], (Real.sqrt (1 / 2) : ℝ))] 1000 0 0 p) = none := by
  set w := Complex.mk (3 / 5) (4 / 5) with hw
  set s := Real.sqrt (1 / 2) with hs
  have hs0 : 0 < s := Real.sqrt_pos.2 (by norm_num)
  have hss : s * s = 1 / 2 := Real.mul_self_sqrt (by norm_num)
  have hwn : ‖w‖ = 1 := by
    rw [Complex.norm_eq_sqrt_sq_add_sq]
    norm_num [hw]
  have hn : ‖w * (s : ℂ)‖ = s := by rw [norm_mul, hwn, one_mul, Complex.norm_real, Real.norm_eq_abs, abs_of_pos hs0]
  have hsc : (s : ℂ) ≠ 0 := by exact_mod_cast hs0.ne'
  have hrad : readNumber (complexToStr env (s : ℂ) 1000 0 0 p) = some (s : ℂ) :=
    C71_complex_exact env henv 1000 (by norm_num) le_rfl p u hu _ ⟨1 / 2, by norm_num, Or.inr (by rw [Complex.ofReal_re, hss]; norm_num)⟩
      ⟨0, by norm_num, Or.inl (by simp)⟩
  have hnot1 : ¬ isOneText (complexToStr env (s : ℂ) 1000 0 0 p) := by
    intro h1
    generalize complexToStr env (s : ℂ) 1000 0 0 p = x at hrad h1
    have hx : readNumber x = some 1 := by
      unfold isOneText at h1
      split at h1
      · subst h1; simp [readNumber, readTerm, readSigned, readFactors]
      · subst h1; simp [readNumber, readTerm, readSigned, readFactors]
      · exact h1.elim
    rw [hx] at hrad
    have : s = 1 := by exact_mod_cast (Option.some.inj hrad).symm
    rw [this] at hss
    norm_num at hss
  have hexp : exponentialToStr env w 1000 0 0 = none := by
    unfold exponentialToStr recognizeAngle
    simp only
    rw [if_neg]
    rw [isclose_zero]
    intro h
    refine arg_three_four (env.lim 1000 (w.arg / Real.pi)) ?_
    rw [← h, div_mul_cancel₀ _ Real.pi_ne_zero]
  have hcart : ∃ c, cartesianToStr env w.re w.im 1000 0 0 = some c := by
    unfold cartesianToStr realToStr
    have h1 := (C71_recognize_exact env henv w.re 1000 (by norm_num)).1.2 ⟨3 / 5, by norm_num, Or.inl (by rw [hw]; norm_num)⟩
    have h2 := (C71_recognize_exact env henv w.im 1000 (by norm_num)).1.2 ⟨4 / 5, by norm_num, Or.inl (by rw [hw]; norm_num)⟩
    cases h3 : recognizeSqrt env w.re 1000 0 0 with
    | none => rw [h3] at h1; cases h1
    | some r =>
      cases h4 : recognizeSqrt env w.im 1000 0 0 with
      | none => rw [h4] at h2; cases h2
      | some r' => exact ⟨_, rfl⟩
  obtain ⟨c, hc⟩ := hcart
  have htext : complexToStr env w 1000 0 0 p = c := by
    unfold complexToStr
    have a1 : ¬ |w.im| ≤ 0 := by rw [abs_nonpos_iff, hw]; norm_num
    have a2 : ¬ |w.re| ≤ 0 := by rw [abs_nonpos_iff, hw]; norm_num
    rw [if_neg (fun h => a1 h.2), if_neg a1, if_neg a2]
    dsimp only
    rw [hexp, hc]
  have hbad := readCoef_cartesian hc
  obtain ⟨n1, n2⟩ := not_one_of_sum hbad
  unfold dictToStr
  rw [if_neg (by simp)]
  have hfu : ∃ rest, factorUniform env [(['0'], w * (s : ℂ)), (['1'], (s : ℂ))] 1000 0 0 p =
      some (complexToStr env (s : ℂ) 1000 0 0 p ++ [.lpar] ++ (c ++ .ket ['0'] :: rest) ++ [.rpar]) := by
    unfold factorUniform
    dsimp only
    rw [hn, if_neg, if_neg hnot1]
    · simp only [List.map_cons, List.map_nil, mul_div_cancel_right₀ _ hsc, htext, joinTerms]
      unfold termToks
      rw [if_neg n1, if_neg n2, if_neg (by simp)]
      exact ⟨_, by rw [List.append_assoc c]; rfl⟩
    · push Not
      refine ⟨hs0.ne', fun kv hkv => ?_⟩
      rw [isclose_zero]
      simp only [List.mem_cons, List.not_mem_nil, or_false] at hkv
      rcases hkv with rfl | rfl
      · exact hn
      · exact (Complex.norm_real s).trans (by rw [Real.norm_eq_abs, abs_of_pos hs0])
  obtain ⟨rest, hfu⟩ := hfu
  rw [hfu, Option.getD_some]
  have hsf := (complexToStr_shape env henv 1000 (by norm_num) le_rfl 0 p (s : ℂ)).1
  have e3 : complexToStr env (s : ℂ) 1000 0 0 p ++ [.lpar] ++ (c ++ .ket ['0'] :: rest) ++ [.rpar] ≠ [.nat 0] := by
    intro h0
    have := congrArg List.getLast? h0
    rw [List.getLast?_concat] at this
    cases this
  have e2 : splitFactor [] (complexToStr env (s : ℂ) 1000 0 0 p ++ [.lpar] ++ (c ++ .ket ['0'] :: rest) ++ [.rpar]) =
      some (complexToStr env (s : ℂ) 1000 0 0 p, (c ++ .ket ['0'] :: rest) ++ [.rpar]) := by
    rw [List.append_assoc, List.append_assoc, splitFactor_plain _ _ _ hsf.plain]
    have := hsf.ne
    generalize complexToStr env (s : ℂ) 1000 0 0 p = x at this
    cases x with
    | nil => exact absurd rfl this
    | cons t x => rfl
  rw [readState_eq e3, e2]
  dsimp only
  rw [List.getLast?_concat]
  dsimp only
  rw [List.dropLast_concat, readKets_bad (plain_noKet (signedForm_cartesian hc).1.plain) hbad, hrad]
  rfl

/-- **C72, failure.** An amplitude that falls back to a decimal with two parts is not put in parentheses either, in any state whose first amplitude it is
when the moduli differ. -/
theorem C72_bare_decimal (env : PpEnv) (p : ℕ) (k : List Char) (z : ℂ) (d : List (List Char × ℂ)) (md : ℕ) (atol : ℝ) (h1 : atol < |z.re|)
    (h2 : atol < |z.im|) (h3 : exponentialToStr env z md atol 0 = none) (h4 : cartesianToStr env z.re z.im md atol 0 = none)
    (hd : ∃ kv ∈ d, ¬ Isclose 0 atol ‖kv.2‖ ‖z‖) : readState (dictToStr env ((k, z) :: d) md atol 0 p) = none := by
  have htext : complexToStr env z md atol 0 p = decimalToStr env z p atol := by
    unfold complexToStr
    rw [if_neg (fun h => not_le.2 h2 h.2), if_neg (not_le.2 h2), if_neg (not_le.2 h1)]
    dsimp only
    rw [h3, h4]
  have hbad := readCoef_decimal env (p := p) h1 h2
  have hsf := signedForm_decimal env z p atol
  have hnp : needsParentheses (decimalToStr env z p atol) = false := by
    unfold decimalToStr decToks
    split_ifs <;> rfl
  obtain ⟨n1, n2⟩ := not_one_of_sum hbad
  unfold dictToStr
  rw [if_neg (by simp)]
  have hfu : factorUniform env ((k, z) :: d) md atol 0 p = none := by
    unfold factorUniform
    split
    · rfl
    · rfl
    · rename_i heq
      obtain ⟨h5, -⟩ := List.cons.inj heq
      obtain ⟨rfl, rfl⟩ := Prod.mk.inj h5
      rw [if_pos]
      obtain ⟨kv, m, h⟩ := hd
      exact Or.inr ⟨kv, List.mem_cons_of_mem _ m, h⟩
  rw [hfu, Option.getD_none]
  simp only [List.map_cons, joinTerms, htext]
  unfold termToks
  rw [if_neg n1, if_neg n2, if_neg (by simp [hnp]), List.append_assoc]
  generalize (List.flatMap connectTerm _) = rest
  have hne : decimalToStr env z p atol ++ ([.ket k] ++ rest) ≠ [.nat 0] := by
    intro h0
    have h5 := congrArg List.length h0
    have h6 := List.length_pos_iff.2 hsf.ne
    have h7 : PTok.ket k ∈ decimalToStr env z p atol ++ ([.ket k] ++ rest) := by simp
    rw [h0] at h7
    simp at h7
  rw [readState_eq hne, splitFactor_plain _ _ _ hsf.plain]
  change readKets 1 [] (decimalToStr env z p atol ++ .ket k :: rest) = none
  exact readKets_bad (plain_noKet hsf.plain) hbad _ _ _

/-! ### Examples -/

/-- The Bell state satisfies the hypotheses of `C72_statevec_exact`. -/
example (p : ℕ) : ∃ m, readState (statevecToStr exPp ⟨fun i => if i = 0 ∨ i = 3 then (Real.sqrt (1 / 2) : ℝ) else 0, 2, 2⟩ .MSB 1000 0 0 p) = some m ∧
    ∀ b : Basis, coefOf m (ketChars ([0, 1].map b)) =
      absState [0, 1] (fun i => if i = 0 ∨ i = 3 then ((Real.sqrt (1 / 2) : ℝ) : ℂ) else 0) b := by
  have hss : Real.sqrt (1 / 2) * Real.sqrt (1 / 2) = 1 / 2 := Real.mul_self_sqrt (by norm_num)
  have h0 : NiceReal 1000 0 := ⟨0, by norm_num, Or.inl (by simp)⟩
  have h1 : NiceReal 1000 (Real.sqrt (1 / 2)) := ⟨1 / 2, by norm_num, Or.inr (by rw [hss]; norm_num)⟩
  refine C72_statevec_exact exPp exPp_valid 1000 (by norm_num) le_rfl p 0 (exPp_rounds p) _ [0, 1] (by simp) rfl (by simp) .MSB ?_ ?_
  · intro i _
    dsimp only
    split_ifs
    · exact ⟨by rw [Complex.ofReal_re]; exact h1, by rw [Complex.ofReal_im]; exact h0⟩
    · exact ⟨h0, h0⟩
  · intro _ i _
    dsimp only
    split_ifs
    · refine ⟨?_, 0, by norm_num, ?_⟩
      · rw [Complex.norm_real, Real.norm_eq_abs, abs_of_nonneg (Real.sqrt_nonneg _)]; exact h1
      · rw [Complex.arg_ofReal_of_nonneg (Real.sqrt_nonneg _)]; simp
    · exact ⟨by rw [norm_zero]; exact h0, 0, by norm_num, by simp⟩

/-- The hypotheses of `C72_bare_decimal` are met by the amplitude `2^(1/4) (1 + i)`, with every library. -/
example (env : PpEnv) (henv : env.Valid) (p : ℕ) :
    readState (dictToStr env [(['0'], Complex.mk (Real.sqrt (Real.sqrt 2)) (Real.sqrt (Real.sqrt 2))), (['1'], 1)] 1000 0 0 p) = none := by
  set x := Real.sqrt (Real.sqrt 2) with hx
  have hxx : x * x = Real.sqrt 2 := Real.mul_self_sqrt (Real.sqrt_nonneg _)
  have h2 : 1 < Real.sqrt 2 := by
    rw [Real.lt_sqrt (by norm_num)]; norm_num
  have hx0 : 0 < x := Real.sqrt_pos.2 (by linarith)
  have hno : ∀ (y : ℝ) (c : ℚ), c ≠ 0 → y * y = c * Real.sqrt 2 → recognizeSqrt env y 1000 0 0 = none := by
    intro y c hc hy
    by_contra hne
    obtain ⟨q, -, hq⟩ := (C71_recognize_exact env henv y 1000 (by norm_num)).1.1 (Option.isSome_iff_ne_none.2 hne)
    have hc' : (c : ℝ) ≠ 0 := by exact_mod_cast hc
    rcases hq with hq | hq
    · refine irrational_sqrt_two ⟨q * q / c, ?_⟩
      push_cast
      rw [← hq, hy]
      field_simp
    · refine irrational_sqrt_two ⟨q / c, ?_⟩
      push_cast
      rw [← hq, hy]
      field_simp
  have hrx := hno x 1 (by norm_num) (by rw [hxx]; simp)
  have hn : ‖Complex.mk x x‖ * ‖Complex.mk x x‖ = 2 * Real.sqrt 2 := by
    rw [← sq, ← Complex.normSq_eq_norm_sq, Complex.normSq_apply]
    dsimp only
    rw [hxx]; ring
  refine C72_bare_decimal env p ['0'] _ _ 1000 0 (abs_pos.2 hx0.ne') (abs_pos.2 hx0.ne') ?_ ?_ ⟨(['1'], 1), by simp, ?_⟩
  · unfold exponentialToStr realToStr
    rw [hno _ 2 (by norm_num) (by rw [hn]; norm_num)]
    cases recognizeAngle env (Complex.mk x x).arg 1000 0 0 with
    | none => rfl
    | some q =>
      dsimp only
      split_ifs <;> rfl
  · unfold cartesianToStr realToStr
    dsimp only
    rw [hrx]; rfl
  · rw [isclose_zero]
    dsimp only
    rw [norm_one]
    intro h
    rw [← h] at hn
    linarith

end Graphix
