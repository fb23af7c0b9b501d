import Verif.Model.PrintDensity
import Verif.Spec.PrintedMatrix
import Verif.Props.PrintState

/-!
# C80: the text of a density matrix
-/

namespace Graphix

/-- Every space is followed by a character that is not a space. -/
def SpacesInside : List Char → Prop
  | [] => True
  | a :: l => (a = ' ' → l ≠ [] ∧ l.head? ≠ some ' ') ∧ SpacesInside l

/-- The text of a cell: not empty, on one line, no space at its ends, no two consecutive spaces. -/
structure CellText (e : List Char) : Prop where
  ne : e ≠ []
  head : e.head? ≠ some ' '
  inside : SpacesInside e
  oneLine : '\n' ∉ e

theorem SpacesInside.append {a b : List Char} (ha : ∀ c ∈ a, c ≠ ' ') (hb : SpacesInside b) : SpacesInside (a ++ b) := by
  induction a with
  | nil => exact hb
  | cons x a ih =>
    exact ⟨fun h => absurd h (ha x (by simp)), ih fun c hc => ha c (by simp [hc])⟩

/-! ### Printed numbers are cells -/

/-- A token without spaces. -/
def solidTok : PTok → Bool
  | .add => false
  | .sub => false
  | .lpar => false
  | .ket _ => false
  | _ => true

/-- What is assumed of decimal literals: not empty, no space, no end of line. -/
def DecText (dec : ℝ → List Char) : Prop := ∀ x, dec x ≠ [] ∧ ∀ c ∈ dec x, c ≠ ' ' ∧ c ≠ '\n'

theorem toDigits_solid (n : ℕ) : Nat.toDigits 10 n ≠ [] ∧ ∀ c ∈ Nat.toDigits 10 n, c ≠ ' ' ∧ c ≠ '\n' := by
  refine ⟨Nat.toDigits_ne_nil, fun c hc => ?_⟩
  have h := Nat.isDigit_of_mem_toDigits (by norm_num) (by norm_num) hc
  constructor <;> (rintro rfl; revert h; decide)

theorem chars_solid {dec : ℝ → List Char} (hdec : DecText dec) {t : PTok} (ht : solidTok t = true) :
    t.chars dec ≠ [] ∧ ∀ c ∈ t.chars dec, c ≠ ' ' ∧ c ≠ '\n' := by
  cases t with
  | add => cases ht
  | sub => cases ht
  | lpar => cases ht
  | ket s => cases ht
  | nat n => exact toDigits_solid n
  | dec x => exact hdec x
  | sqrt n =>
    refine ⟨by simp [PTok.chars], fun c hc => ?_⟩
    simp only [PTok.chars, List.mem_append] at hc
    rcases hc with (hc | hc) | hc
    · revert c; decide
    · exact (toDigits_solid n).2 c hc
    · revert c; decide
  | _ => refine ⟨by simp [PTok.chars], ?_⟩; simp only [PTok.chars]; decide

theorem tokText_solid {dec : ℝ → List Char} (hdec : DecText dec) {l : List PTok} (hl : l.all solidTok = true) :
    ∀ c ∈ tokText dec l, c ≠ ' ' ∧ c ≠ '\n' := by
  intro c hc
  unfold tokText at hc
  rw [List.mem_flatMap] at hc
  obtain ⟨t, ht, hc⟩ := hc
  exact (chars_solid hdec (List.all_eq_true.1 hl t ht)).2 c hc

theorem tokText_ne {dec : ℝ → List Char} (hdec : DecText dec) {l : List PTok} (hl : l.all solidTok = true) (hne : l ≠ []) :
    tokText dec l ≠ [] := by
  cases l with
  | nil => exact absurd rfl hne
  | cons t l =>
    have := (chars_solid hdec (List.all_eq_true.1 hl t (by simp))).1
    simp [tokText, this]

theorem tokText_append (dec : ℝ → List Char) (a b : List PTok) : tokText dec (a ++ b) = tokText dec a ++ tokText dec b := by
  simp [tokText]

theorem head?_ne_of_mem {e : List Char} {x : Char} (h : ∀ c ∈ e, c ≠ x) : e.head? ≠ some x := by
  intro h2
  exact h x (List.mem_of_mem_head? h2) rfl

theorem SpacesInside.solid {e : List Char} (h : ∀ c ∈ e, c ≠ ' ') : SpacesInside e := by
  have := SpacesInside.append (b := []) h trivial
  rwa [List.append_nil] at this

theorem cellText_solid {dec : ℝ → List Char} (hdec : DecText dec) {l : List PTok} (hl : l.all solidTok = true) (hne : l ≠ []) :
    CellText (tokText dec l) :=
  ⟨tokText_ne hdec hl hne, head?_ne_of_mem fun c hc => (tokText_solid hdec hl c hc).1,
    SpacesInside.solid fun c hc => (tokText_solid hdec hl c hc).1, fun h => (tokText_solid hdec hl _ h).2 rfl⟩

theorem cellText_sum {dec : ℝ → List Char} (hdec : DecText dec) {a b : List PTok} {t : PTok} (ht : t = .add ∨ t = .sub)
    (ha : a.all solidTok = true) (hane : a ≠ []) (hb : b.all solidTok = true) (hbne : b ≠ []) : CellText (tokText dec (a ++ [t] ++ b)) := by
  have hb1 := tokText_ne hdec hb hbne
  have hb2 := tokText_solid hdec hb
  have ha1 := tokText_ne hdec ha hane
  have ha2 := tokText_solid hdec ha
  have htt : ∃ x, x ≠ ' ' ∧ x ≠ '\n' ∧ tokText dec [t] = [' ', x, ' '] := by
    rcases ht with rfl | rfl
    · exact ⟨'+', by decide, by decide, rfl⟩
    · exact ⟨'-', by decide, by decide, rfl⟩
  obtain ⟨x, hx1, hx2, hx⟩ := htt
  rw [tokText_append, tokText_append, hx, List.append_assoc]
  refine ⟨by simp, ?_, ?_, ?_⟩
  · cases h : tokText dec a with
    | nil => exact absurd h ha1
    | cons c l =>
      rw [h] at ha2
      simpa using (ha2 c (by simp)).1
  · refine SpacesInside.append (fun c hc => (ha2 c hc).1) ?_
    refine ⟨fun _ => ⟨by simp, by simpa using hx1⟩, fun h => absurd h hx1, fun _ => ⟨by simpa using hb1, ?_⟩, ?_⟩
    · simpa using head?_ne_of_mem fun c hc => (hb2 c hc).1
    · simpa using SpacesInside.solid fun c hc => (hb2 c hc).1
  · simp only [List.mem_append, not_or]
    refine ⟨fun h => (ha2 _ h).2 rfl, ?_, fun h => (hb2 _ h).2 rfl⟩
    simp [hx2.symm]

theorem solid_renderReal (s : ℤ) (i d : ℕ) : (renderReal s i d).all solidTok = true := by
  unfold renderReal sqrtStr signStr
  simp only
  split_ifs <;> simp [solidTok]

theorem solid_renderImaginary (s : ℤ) (i d : ℕ) : (renderImaginary s i d).all solidTok = true := by
  unfold renderImaginary sqrtStr signStr
  simp only
  split_ifs <;> simp [solidTok]

theorem solid_decToks (v : ℝ) : (decToks v).all solidTok = true := by
  unfold decToks
  split_ifs <;> rfl

theorem solid_real {env : PpEnv} {x : ℝ} {md : ℕ} {atol rtol : ℝ} {l : List PTok} (h : realToStr env x md atol rtol = some l) :
    l.all solidTok = true := by
  unfold realToStr at h
  rw [Option.map_eq_some_iff] at h
  obtain ⟨⟨s, i, d⟩, -, rfl⟩ := h
  exact solid_renderReal _ _ _

theorem solid_angle (env : PpEnv) (a : ℝ) : (angleToStr env a).all solidTok = true := by
  unfold angleToStr decToks signStr
  simp only
  split_ifs <;> first | rfl | (split <;> rfl)

theorem solid_exponential {env : PpEnv} {z : ℂ} {md : ℕ} {atol rtol : ℝ} {l : List PTok}
    (h : exponentialToStr env z md atol rtol = some l) : l.all solidTok = true := by
  unfold exponentialToStr at h
  cases ha : recognizeAngle env z.arg md atol rtol with
  | none => rw [ha] at h; cases h
  | some q =>
    rw [ha] at h
    simp only at h
    by_cases h0 : q = 0
    · rw [if_pos h0] at h; cases h
    rw [if_neg h0] at h
    cases hr : realToStr env ‖z‖ md atol rtol with
    | none => rw [hr] at h; cases h
    | some radius =>
      rw [hr] at h
      dsimp only at h
      have hs : (if q < 0 then [PTok.neg] else []).all solidTok = true := by split_ifs <;> rfl
      generalize (if q < 0 then [PTok.neg] else []) = sg at h hs
      have hp : (PTok.expo :: sg ++ [PTok.imag, PTok.times] ++ angleToStr env ((|q| : ℚ) : ℝ) ++ [PTok.rpar]).all solidTok = true := by
        rw [List.all_append, List.all_append, solid_angle, List.cons_append, List.all_cons, List.all_append, hs]
        rfl
      split_ifs at h with h1
      · obtain rfl := Option.some.inj h
        exact hp
      · obtain rfl := Option.some.inj h
        rw [List.all_append, List.all_append, solid_real hr, hp]
        rfl

theorem solid_decimal (env : PpEnv) (z : ℂ) (p : ℕ) (atol : ℝ) : (decimalToStr env z p atol).all solidTok = true := by
  unfold decimalToStr
  split_ifs <;> simp only [List.all_append, solid_decToks] <;> rfl

theorem cellText_cartesian {dec : ℝ → List Char} (hdec : DecText dec) {env : PpEnv} {re im : ℝ} {md : ℕ} {atol rtol : ℝ} {l : List PTok}
    (h : cartesianToStr env re im md atol rtol = some l) : CellText (tokText dec l) := by
  unfold cartesianToStr at h
  cases hr : realToStr env re md atol rtol with
  | none => rw [hr] at h; cases h
  | some reStr =>
    cases hi : recognizeSqrt env im md atol rtol with
    | none => rw [hr, hi] at h; cases h
    | some r =>
      obtain ⟨s, i, d⟩ := r
      rw [hr, hi] at h
      dsimp only at h
      obtain rfl := Option.some.inj h
      refine cellText_sum hdec (by split_ifs <;> simp) (solid_real hr) (signedForm_real hr).ne ?_ ?_
      · split_ifs
        · rfl
        · rw [List.all_append, solid_renderReal]; rfl
      · split_ifs <;> simp

/-- Every printed number is the text of a cell. -/
theorem cellText_complex {dec : ℝ → List Char} (hdec : DecText dec) (env : PpEnv) (z : ℂ) (md : ℕ) (atol rtol : ℝ) (p : ℕ) :
    CellText (tokText dec (complexToStr env z md atol rtol p)) := by
  have hd : CellText (tokText dec (decimalToStr env z p atol)) := cellText_solid hdec (solid_decimal _ _ _ _) (signedForm_decimal _ _ _ _).ne
  have he : ∀ e, exponentialToStr env z md atol rtol = some e → CellText (tokText dec e) := fun e h =>
    cellText_solid hdec (solid_exponential h) (signedForm_exponential h).ne
  have hc : ∀ c, cartesianToStr env z.re z.im md atol rtol = some c → CellText (tokText dec c) := fun c h => cellText_cartesian hdec h
  unfold complexToStr
  split_ifs with h1 h2 h3
  · exact cellText_solid hdec (l := [.nat 0]) rfl (by simp)
  · cases hr : realToStr env z.re md atol rtol with
    | none => exact hd
    | some l => exact cellText_solid hdec (solid_real hr) (signedForm_real hr).ne
  · cases hr : imaginaryToStr env z.im md atol rtol with
    | none => exact hd
    | some l =>
      unfold imaginaryToStr at hr
      rw [Option.map_eq_some_iff] at hr
      obtain ⟨⟨s, i, d⟩, -, rfl⟩ := hr
      exact cellText_solid hdec (solid_renderImaginary _ _ _) (renderImaginary_ne _ _ _)
  · dsimp only
    split
    · rename_i e h _
      exact he e h
    · split
      · rename_i c h
        exact hc c h
      · split
        · rename_i e h
          exact he e h
        · exact hd

/-! ### Reading lines and cells -/

theorem readLines_line (cur l rest : List Char) (h : '\n' ∉ l) : readLines cur (l ++ rest) = readLines (cur ++ l) rest := by
  induction l generalizing cur with
  | nil => simp
  | cons c l ih =>
    have hc : c ≠ '\n' := fun h2 => h (by simp [h2])
    rw [List.cons_append, readLines, if_neg hc, ih _ fun h2 => h (by simp [h2]), List.append_assoc]; rfl

theorem readLines_join (l : List (List Char)) (hne : l ≠ []) (h : ∀ x ∈ l, '\n' ∉ x) : readLines [] (joinText ['\n'] l) = l := by
  induction l with
  | nil => exact absurd rfl hne
  | cons x l ih =>
    cases l with
    | nil =>
      have := readLines_line [] x [] (h x (by simp))
      rw [List.append_nil] at this
      exact this
    | cons y l =>
      rw [joinText, List.append_assoc, readLines_line _ _ _ (h x (by simp)), List.singleton_append, readLines, if_pos rfl,
        ih (by simp) fun z hz => h z (List.mem_cons_of_mem _ hz)]
      rfl

theorem readCells_cell (cur e rest : List Char) (hc : SpacesInside e) (h : cur ≠ [] ∨ e.head? ≠ some ' ') :
    readCells cur (e ++ rest) = readCells (cur ++ e) rest := by
  induction e generalizing cur with
  | nil => simp
  | cons a l ih =>
    have step : readCells (cur ++ [a]) (l ++ rest) = readCells (cur ++ a :: l) rest := by
      rw [ih _ hc.2 (Or.inl (by simp)), List.append_assoc]; rfl
    rw [List.cons_append, readCells]
    by_cases ha : a = ' '
    · obtain ⟨h1, h2⟩ := hc.1 ha
      have hcur : cur ≠ [] := by
        rcases h with h | h
        · exact h
        · exact absurd (by rw [ha]; rfl) h
      have h3 : (l ++ rest).head? ≠ some ' ' := by
        cases l with
        | nil => exact absurd rfl h1
        | cons b l => exact h2
      rw [if_pos ha, if_neg hcur, if_neg h3]
      rw [ha] at step ⊢
      exact step
    · rw [if_neg ha]; exact step

theorem readCells_spaces (n : ℕ) (l : List Char) : readCells [] (List.replicate n ' ' ++ l) = readCells [] l := by
  induction n with
  | zero => rfl
  | succ n ih => rw [List.replicate_succ, List.cons_append, readCells, if_pos rfl, if_pos rfl, ih]

theorem readCells_end (cur : List Char) (hcur : cur ≠ []) (l : List Char) :
    readCells cur (' ' :: ' ' :: l) = cur :: readCells [] l := by
  have h : (' ' :: l).head? = some ' ' := rfl
  rw [readCells, if_pos rfl, if_neg hcur, if_pos h, readCells, if_pos rfl, if_pos rfl]

theorem readCells_rjust (w : ℕ) {e : List Char} (he : CellText e) (rest : List Char) : readCells [] (rjust w e ++ rest) = readCells e rest := by
  unfold rjust
  rw [List.append_assoc, readCells_spaces, readCells_cell [] e rest he.inside (Or.inr he.head)]
  rfl

theorem readCells_join (l : List (ℕ × List Char)) (h : ∀ x ∈ l, CellText x.2) :
    readCells [] (joinText [' ', ' '] (l.map fun x => rjust x.1 x.2)) = l.map Prod.snd := by
  induction l with
  | nil => rfl
  | cons x l ih =>
    cases l with
    | nil =>
      have := readCells_rjust x.1 (h x (by simp)) []
      rw [List.append_nil] at this
      simp only [List.map_cons, List.map_nil, joinText]
      rw [this, readCells, if_neg (h x (by simp)).ne]
    | cons y l =>
      rw [List.map_cons, List.map_cons, joinText, List.append_assoc, readCells_rjust x.1 (h x (by simp)), List.cons_append, List.cons_append,
        List.nil_append, readCells_end _ (h x (by simp)).ne]
      rw [← List.map_cons (f := fun x : ℕ × List Char => rjust x.1 x.2), ih fun z hz => h z (List.mem_cons_of_mem _ hz)]
      rfl

theorem insideBrackets_eq (l : List Char) : insideBrackets (['[', ' '] ++ l ++ [' ', ']']) = some l := by
  unfold insideBrackets
  have h1 : (['[', ' '] ++ l ++ [' ', ']']).length = l.length + 4 := by simp
  rw [if_pos, h1]
  · simp
  · rw [h1]
    refine ⟨rfl, ?_, by omega⟩
    rw [List.drop_append_of_le_length (by simp)]
    rw [List.drop_of_length_le (by simp)]
    rfl

/-- The lines of the grid. -/
def gridLines (rows : List (List (List Char))) : List (List Char) :=
  rows.map fun row => ['[', ' '] ++ joinText [' ', ' '] (row.zipIdx.map fun ec => rjust (columnWidth rows ec.2) ec.1) ++ [' ', ']']

theorem mem_joinText {sep : List Char} {l : List (List Char)} {c : Char} (h : c ∈ joinText sep l) : c ∈ sep ∨ ∃ x ∈ l, c ∈ x := by
  induction l with
  | nil => cases h
  | cons x l ih =>
    cases l with
    | nil => exact Or.inr ⟨x, by simp, h⟩
    | cons y l =>
      rw [joinText, List.mem_append, List.mem_append] at h
      rcases h with (h | h) | h
      · exact Or.inr ⟨x, by simp, h⟩
      · exact Or.inl h
      · rcases ih h with h | ⟨z, hz, h⟩
        · exact Or.inl h
        · exact Or.inr ⟨z, List.mem_cons_of_mem _ hz, h⟩

theorem gridLines_oneLine (rows : List (List (List Char))) (h : ∀ r ∈ rows, ∀ e ∈ r, CellText e) : ∀ x ∈ gridLines rows, '\n' ∉ x := by
  intro x hx hn
  unfold gridLines at hx
  rw [List.mem_map] at hx
  obtain ⟨row, hrow, rfl⟩ := hx
  rw [List.mem_append, List.mem_append] at hn
  rcases hn with (hn | hn) | hn
  · revert hn; decide
  · rcases mem_joinText hn with hn | ⟨y, hy, hn⟩
    · revert hn; decide
    · rw [List.mem_map] at hy
      obtain ⟨⟨e, j⟩, hej, rfl⟩ := hy
      have he : e ∈ row := (List.mem_zipIdx hej).2.2 ▸ List.getElem_mem _
      unfold rjust at hn
      rw [List.mem_append] at hn
      rcases hn with hn | hn
      · exact absurd (List.eq_of_mem_replicate hn) (by decide)
      · exact (h row hrow e he).oneLine hn
  · revert hn; decide

theorem mapM_some_of {α β : Type} {f : α → Option β} {g : α → β} (l : List α) (h : ∀ a ∈ l, f a = some (g a)) : l.mapM f = some (l.map g) := by
  induction l with
  | nil => rfl
  | cons a l ih => rw [List.mapM_cons, h a (by simp), ih fun b hb => h b (by simp [hb])]; rfl

/-- Reading an aligned grid gives back its cells. -/
theorem readGrid_alignGrid (rows : List (List (List Char))) (hne : rows ≠ []) (h : ∀ r ∈ rows, ∀ e ∈ r, CellText e) :
    readLines [] (alignGrid rows) = gridLines rows ∧ readGrid (alignGrid rows) = some rows := by
  have h1 : readLines [] (alignGrid rows) = gridLines rows :=
    readLines_join (gridLines rows) (by simpa [gridLines] using hne) (gridLines_oneLine rows h)
  refine ⟨h1, ?_⟩
  unfold readGrid
  rw [h1]
  unfold gridLines
  rw [List.mapM_map]
  rw [mapM_some_of (g := id) rows, List.map_id]
  intro row hrow
  rw [Function.comp_apply, insideBrackets_eq, Option.map_some]
  have := readCells_join (row.zipIdx.map fun ec => (columnWidth rows ec.2, ec.1)) (by
    intro x hx
    rw [List.mem_map] at hx
    obtain ⟨⟨e, j⟩, hej, rfl⟩ := hx
    exact h row hrow e ((List.mem_zipIdx hej).2.2 ▸ List.getElem_mem _))
  rw [List.map_map, List.map_map] at this
  refine congrArg some (Eq.trans this ?_)
  exact List.zipIdx_map_fst 0 row

/-! ### The columns are aligned -/

theorem foldl_max_ge (l : List ℕ) (a : ℕ) : a ≤ l.foldl max a ∧ ∀ x ∈ l, x ≤ l.foldl max a := by
  induction l generalizing a with
  | nil => exact ⟨le_rfl, by simp⟩
  | cons y l ih =>
    obtain ⟨h1, h2⟩ := ih (max a y)
    refine ⟨(le_max_left _ _).trans h1, fun x hx => ?_⟩
    rcases List.mem_cons.1 hx with rfl | hx
    · exact (le_max_right _ _).trans h1
    · exact h2 x hx

theorem length_le_columnWidth (rows : List (List (List Char))) {row : List (List Char)} (hr : row ∈ rows) {j : ℕ} (hj : j < row.length) :
    row[j].length ≤ columnWidth rows j := by
  refine (foldl_max_ge _ 0).2 _ (List.mem_map.2 ⟨row, hr, ?_⟩)
  rw [List.getD_eq_getElem?_getD, List.getElem?_eq_getElem hj]; rfl

theorem length_rjust {w : ℕ} {e : List Char} (h : e.length ≤ w) : (rjust w e).length = w := by
  unfold rjust
  rw [List.length_append, List.length_replicate]; omega

/-- The place where the entry `j` ends in the joined cells. -/
def stopOf (w : ℕ → ℕ) : ℕ → ℕ
  | 0 => w 0
  | j + 1 => w 0 + 2 + stopOf (fun k => w (k + 1)) j

theorem stopOf_succ (w : ℕ → ℕ) (j : ℕ) : stopOf w (j + 1) = stopOf w j + 2 + w (j + 1) := by
  induction j generalizing w with
  | zero => rfl
  | succ j ih => rw [stopOf, ih, stopOf]; omega

theorem join_stops (w : ℕ → ℕ) (l : List (List Char)) (hl : ∀ j (hj : j < l.length), l[j].length = w j) :
    (l ≠ [] → (joinText [' ', ' '] l).length = stopOf w (l.length - 1)) ∧
    ∀ j (hj : j < l.length), l[j] <:+ (joinText [' ', ' '] l).take (stopOf w j) ∧ stopOf w j ≤ (joinText [' ', ' '] l).length := by
  induction l generalizing w with
  | nil => exact ⟨fun h => absurd rfl h, fun j hj => absurd hj (by simp)⟩
  | cons x l ih =>
    have h0 : x.length = w 0 := hl 0 (by simp)
    cases l with
    | nil =>
      refine ⟨fun _ => h0, fun j hj => ?_⟩
      obtain rfl : j = 0 := by simpa using hj
      simp only [joinText, stopOf, List.getElem_cons_zero]
      exact ⟨by rw [← h0, List.take_length], h0.ge⟩
    | cons y l =>
      obtain ⟨i1, i2⟩ := ih (fun k => w (k + 1)) fun j hj => hl (j + 1) (Nat.succ_lt_succ hj)
      have i1 := i1 (by simp)
      refine ⟨fun _ => ?_, fun j hj => ?_⟩
      · rw [joinText, List.length_append, List.length_append, i1, h0]
        simp [stopOf]
      · cases j with
        | zero =>
          simp only [joinText, stopOf, List.getElem_cons_zero]
          refine ⟨?_, ?_⟩
          · rw [List.append_assoc, ← h0, List.take_left]
          · simp only [List.length_append]; omega
        | succ j =>
          obtain ⟨k1, k2⟩ := i2 j (by simpa using hj)
          simp only [joinText, stopOf, List.getElem_cons_succ]
          refine ⟨?_, ?_⟩
          · refine k1.trans ?_
            have h2 : (x ++ [' ', ' ']).length = w 0 + 2 := by rw [List.length_append, h0]; rfl
            rw [← h2, List.take_length_add_append]
            exact List.suffix_append _ _
          · simp only [List.length_append, List.length_cons, List.length_nil]; omega

theorem aligned_gridLines (rows : List (List (List Char))) (n : ℕ) (hn : 0 < n) (h : ∀ r ∈ rows, r.length = n) : Aligned (gridLines rows) rows := by
  refine ⟨2 + stopOf (columnWidth rows) (n - 1) + 2, fun j => 2 + stopOf (columnWidth rows) j, strictMono_nat_of_lt_succ fun j => ?_,
    by simp [gridLines], fun i hi hi' => ?_⟩
  · rw [stopOf_succ]; omega
  have hmem : rows[i] ∈ rows := List.getElem_mem _
  have hlen := h _ hmem
  obtain ⟨j1, j2⟩ := join_stops (columnWidth rows) (rows[i].zipIdx.map fun ec => rjust (columnWidth rows ec.2) ec.1) (by
    intro j hj
    rw [List.length_map, List.length_zipIdx] at hj
    rw [List.getElem_map, List.getElem_zipIdx]
    simp only [Nat.zero_add]
    exact length_rjust (length_le_columnWidth rows hmem hj))
  rw [List.length_map, List.length_zipIdx, hlen] at j1
  have j1 := j1 (by
    intro h0
    have := congrArg List.length h0
    rw [List.length_map, List.length_zipIdx, hlen] at this
    simp at this; omega)
  have hg : (gridLines rows)[i] =
      ['[', ' '] ++ joinText [' ', ' '] (rows[i].zipIdx.map fun ec => rjust (columnWidth rows ec.2) ec.1) ++ [' ', ']'] := by
    simp only [gridLines, List.getElem_map]
  rw [hg]
  refine ⟨?_, fun j hj => ?_⟩
  · simp only [List.length_append, j1, List.length_cons, List.length_nil]
  · obtain ⟨k1, k2⟩ := j2 j (by rw [List.length_map, List.length_zipIdx]; exact hj)
    refine ⟨?_, ?_⟩
    · rw [List.getElem_map, List.getElem_zipIdx] at k1
      simp only [Nat.zero_add] at k1
      have k3 : rows[i][j] <:+ rjust (columnWidth rows j) rows[i][j] := List.suffix_append _ _
      refine (k3.trans k1).trans ?_
      have h2 : (['[', ' '] : List Char).length = 2 := rfl
      rw [List.append_assoc, ← h2, List.take_length_add_append, List.take_append_of_le_length k2]
      exact List.suffix_append _ _
    · rw [j1] at k2
      dsimp only
      omega

/-- **C80** The text of a density matrix is a grid whose cells are the texts of the entries, in the order of the matrix; the columns are aligned; each
cell reads as a number close to the entry. -/
theorem C80_density_to_str (env : PpEnv) (henv : env.Valid) (dec : ℝ → List Char) (hdec : DecText dec) (md : ℕ) (hmd : 0 < md) (hmd' : md ≤ 1000)
    (atol : ℝ) (ha : 0 ≤ atol) (p : ℕ) (u : ℝ) (hu : env.Rounds p u) (dm : DensityMatrix) (hr : 0 < dm.rho.rows) (hc : 0 < dm.rho.cols) :
    ∃ rows : List (List (List Char)), readGrid (densityMatrixToStr env dec dm md atol 0 p) = some rows ∧
      Aligned (readLines [] (densityMatrixToStr env dec dm md atol 0 p)) rows ∧ rows.length = dm.rho.rows ∧
      ∀ i (hi : i < rows.length), rows[i].length = dm.rho.cols ∧ ∀ j (hj : j < rows[i].length),
        ∃ toks, rows[i][j] = tokText dec toks ∧ PrintedClose env (dm.rho.entry i j) md atol u toks := by
  unfold densityMatrixToStr
  set rows := (List.range dm.rho.rows).map fun i => (List.range dm.rho.cols).map fun j =>
    tokText dec (complexToStr env (dm.rho.entry i j) md atol 0 p) with hrows
  have hcell : ∀ r ∈ rows, ∀ e ∈ r, CellText e := by
    intro r hr e he
    rw [hrows, List.mem_map] at hr
    obtain ⟨i, -, rfl⟩ := hr
    rw [List.mem_map] at he
    obtain ⟨j, -, rfl⟩ := he
    exact cellText_complex hdec env _ md atol 0 p
  have hlen : ∀ r ∈ rows, r.length = dm.rho.cols := by
    intro r hr
    rw [hrows, List.mem_map] at hr
    obtain ⟨i, -, rfl⟩ := hr
    simp
  have hn : rows.length = dm.rho.rows := by simp [hrows]
  have hne : rows ≠ [] := fun h => by rw [h] at hn; simp at hn; omega
  obtain ⟨h1, h2⟩ := readGrid_alignGrid rows hne hcell
  refine ⟨rows, h2, by rw [h1]; exact aligned_gridLines rows _ hc hlen, hn, fun i hi => ⟨hlen _ (List.getElem_mem _), fun j hj => ?_⟩⟩
  exact ⟨complexToStr env (dm.rho.entry i j) md atol 0 p, by simp [hrows], C71_complex_to_str env henv md hmd hmd' atol ha p u hu _⟩

/-- **C80** With zero tolerances, a matrix whose entries have parts that are fractions, or square roots of fractions, with denominators at most
`max_denominator`, is printed exactly. -/
theorem C80_density_exact (env : PpEnv) (henv : env.Valid) (dec : ℝ → List Char) (hdec : DecText dec) (md : ℕ) (hmd : 0 < md) (hmd' : md ≤ 1000)
    (p : ℕ) (u : ℝ) (hu : env.Rounds p u) (dm : DensityMatrix) (hr : 0 < dm.rho.rows)
    (hn : ∀ i < dm.rho.rows, ∀ j < dm.rho.cols, NiceReal md (dm.rho.entry i j).re ∧ NiceReal md (dm.rho.entry i j).im) :
    ∃ toks : ℕ → ℕ → List PTok, readGrid (densityMatrixToStr env dec dm md 0 0 p) =
        some ((List.range dm.rho.rows).map fun i => (List.range dm.rho.cols).map fun j => tokText dec (toks i j)) ∧
      ∀ i < dm.rho.rows, ∀ j < dm.rho.cols, readNumber (toks i j) = some (dm.rho.entry i j) := by
  refine ⟨fun i j => complexToStr env (dm.rho.entry i j) md 0 0 p, (readGrid_alignGrid _ (by simpa using hr.ne') ?_).2, fun i hi j hj => ?_⟩
  · intro r hr e he
    rw [List.mem_map] at hr
    obtain ⟨i, -, rfl⟩ := hr
    rw [List.mem_map] at he
    obtain ⟨j, -, rfl⟩ := he
    exact cellText_complex hdec env _ md 0 0 p
  · exact C71_complex_exact env henv md hmd hmd' p u hu _ (hn i hi j hj).1 (hn i hi j hj).2

/-- A text of decimal literals. -/
def exDec : ℝ → List Char := fun _ => ['0', '.', '1']

theorem exDec_ok : DecText exDec := fun _ => ⟨by simp [exDec], by unfold exDec; decide⟩

/-- The two theorems apply to the matrix of `|+⟩⟨+|`, with the default parameters. -/
example : ∃ rows : List (List (List Char)),
    readGrid (densityMatrixToStr exPp exDec ⟨⟨2, 2, fun _ _ => 1 / 2⟩⟩ 1000 (1 / 10 ^ 9) 0 4) = some rows ∧ rows.length = 2 := by
  obtain ⟨rows, h1, -, h2, -⟩ := C80_density_to_str exPp exPp_valid exDec exDec_ok 1000 (by norm_num) le_rfl
    (1 / 10 ^ 9) (by positivity) 4 0 (exPp_rounds 4) ⟨⟨2, 2, fun _ _ => 1 / 2⟩⟩ (by decide) (by decide)
  exact ⟨rows, h1, h2⟩

example : ∃ toks : ℕ → ℕ → List PTok,
    readGrid (densityMatrixToStr exPp exDec ⟨⟨2, 2, fun _ _ => ⟨1 / 2, 0⟩⟩⟩ 1000 0 0 4) =
      some [[tokText exDec (toks 0 0), tokText exDec (toks 0 1)], [tokText exDec (toks 1 0), tokText exDec (toks 1 1)]] ∧
    readNumber (toks 1 0) = some ⟨1 / 2, 0⟩ := by
  obtain ⟨toks, h1, h2⟩ := C80_density_exact exPp exPp_valid exDec exDec_ok 1000 (by norm_num) le_rfl
    4 0 (exPp_rounds 4) ⟨⟨2, 2, fun _ _ => ⟨1 / 2, 0⟩⟩⟩ (by decide) fun i _ j _ =>
      ⟨⟨1 / 2, by decide +kernel, Or.inl (by push_cast; norm_num)⟩, ⟨0, by decide +kernel, Or.inl (by push_cast; norm_num)⟩⟩
  exact ⟨toks, h1, h2 1 (by decide) 0 (by decide)⟩

/-- A grid, and what is read. -/
example : readGrid (alignGrid [[['1'], ['1', ' ', '+', ' ', 'i']], [['1', '/', '2'], ['0']]]) =
    some [[['1'], ['1', ' ', '+', ' ', 'i']], [['1', '/', '2'], ['0']]] := by decide +kernel

example : alignGrid [[['1'], ['1', '/', '2']], [['1', '/', '2'], ['0']]] = "[   1  1/2 ]\n[ 1/2    0 ]".toList := by decide +kernel

end Graphix
