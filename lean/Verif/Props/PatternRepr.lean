import Verif.Spec.PythonText
import Verif.Model.PatternViews
import Verif.Props.Standardize

/-!
# Property C77: the text of a pattern evaluates to the pattern
-/

namespace Graphix

open scoped Classical

/-- What follows a value in a call. -/
def AfterValue (rest : List RTok) : Prop := ∃ r, rest = .comma :: r ∨ rest = .rpar :: r

theorem readFloat_repr (x : ℝ) (rest : List RTok) : readFloat (reprFloat x ++ rest) = some (x, rest) := by
  unfold reprFloat
  split_ifs <;> simp [readFloat]

theorem readInts_rbrack (l : List ℕ) (h : l ≠ []) (rest : List RTok) :
    readInts .rbrack (joinComma (l.map fun n => [.int n]) ++ [.rbrack] ++ rest) = some (l, rest) := by
  induction l with
  | nil => exact absurd rfl h
  | cons n l ih =>
    cases l with
    | nil => simp [joinComma, readInts]
    | cons m l =>
      have := ih (by simp)
      simp only [List.map_cons, joinComma, List.cons_append, List.nil_append, readInts] at this ⊢
      rw [this]
      rfl

theorem readInts_rbrace (l : List ℕ) (h : l ≠ []) (rest : List RTok) :
    readInts .rbrace (joinComma (l.map fun n => [.int n]) ++ [.rbrace] ++ rest) = some (l, rest) := by
  induction l with
  | nil => exact absurd rfl h
  | cons n l ih =>
    cases l with
    | nil => simp [joinComma, readInts]
    | cons m l =>
      have := ih (by simp)
      simp only [List.map_cons, joinComma, List.cons_append, List.nil_append, readInts] at this ⊢
      rw [this]
      rfl

theorem readVal_set {en : Finset ℕ → List ℕ} (hen : ∀ d, (en d).toFinset = d) {d : Finset ℕ} (hd : d ≠ ∅) (rest : List RTok) :
    readVal (reprSet en d ++ rest) = some (.set (en d), rest) := by
  have : en d ≠ [] := fun h => hd (by rw [← hen d, h]; rfl)
  have h := readInts_rbrace (en d) this rest
  simp only [reprSet, List.cons_append, readVal]
  rw [h]
  rfl

theorem readMeasurement_bloch (m : BlochMeasurement) (rest : List RTok) :
    readMeasurement (reprMeasurement (.bloch m) ++ rest) = some (.bloch m, rest) := by
  obtain ⟨x, p⟩ := m
  have h := readFloat_repr x (.rpar :: rest)
  simp only [reprMeasurement, List.cons_append, List.nil_append, List.append_assoc, readMeasurement, if_true]
  rw [h]
  cases p <;> simp [planeNamed, planeName]

theorem readVal_measurement (m : Measurement) {rest : List RTok} (hr : AfterValue rest) :
    readVal (reprMeasurement m ++ rest) = some (.meas m, rest) := by
  cases m with
  | bloch m =>
    have := readMeasurement_bloch m rest
    simp only [reprMeasurement, List.cons_append, List.nil_append, List.append_assoc] at this
    simp only [reprMeasurement, List.cons_append, List.nil_append, List.append_assoc, readVal, if_true]
    rw [this]
    rfl
  | pauli m =>
    obtain ⟨a, s⟩ := m
    obtain ⟨r, rfl | rfl⟩ := hr <;> cases s <;> cases a <;>
      simp [reprMeasurement, readVal, readMeasurement, axisNamed, axisName, Sign.neg, Sign.minusIf]

theorem readVal_state (s : PlanarState) (rest : List RTok) : readVal (reprState s ++ rest) = some (.state s, rest) := by
  obtain ⟨p, x⟩ := s
  have h := readFloat_repr x (.rpar :: rest)
  simp only [reprState, List.cons_append, List.nil_append, List.append_assoc, readVal]
  rw [if_neg (by decide), if_neg (by decide), if_pos (by decide)]
  simp only [readPlanarState, if_true]
  rw [h]
  cases p <;> simp [planeNamed, planeName]

/-- The text of a gate of a decomposition. -/
def gateToks (g : Clifford) : List RTok := [.name "Clifford", .dot, .name (cliffordLabel g)]

theorem readProduct_join (gs : List Clifford) (hg : ∀ g ∈ gs, cliffordNamed (cliffordLabel g) = some g) (acc : Clifford) {rest : List RTok}
    (hr : AfterValue rest) :
    readProduct acc ((gs.flatMap fun g => .at :: gateToks g) ++ rest) = some (gs.foldl Clifford.mul acc, rest) := by
  induction gs generalizing acc with
  | nil => obtain ⟨r, rfl | rfl⟩ := hr <;> simp [readProduct]
  | cons g gs ih =>
    have h := ih (fun x hx => hg x (List.mem_cons_of_mem _ hx)) (acc.mul g)
    simp only [List.flatMap_cons, gateToks, List.cons_append, List.nil_append, readProduct, if_true, hg g List.mem_cons_self, Option.bind_some,
      List.foldl_cons] at h ⊢
    exact h

theorem joinAt_gates (g : Clifford) (gs : List Clifford) :
    joinAt ((g :: gs).map gateToks) = gateToks g ++ gs.flatMap fun g => .at :: gateToks g := by
  induction gs generalizing g with
  | nil => simp [joinAt]
  | cons h gs ih =>
    have := ih h
    simp only [List.map_cons, joinAt, List.flatMap_cons] at this ⊢
    rw [this]
    simp

theorem readClifford_join (g : Clifford) (gs : List Clifford) (hg : ∀ x ∈ g :: gs, cliffordNamed (cliffordLabel x) = some x) {rest : List RTok}
    (hr : AfterValue rest) :
    readClifford (joinAt ((g :: gs).map gateToks) ++ rest) = some (gs.foldl Clifford.mul g, rest) := by
  rw [joinAt_gates]
  have h := readProduct_join gs (fun x hx => hg x (List.mem_cons_of_mem _ hx)) g hr
  have hn := hg g List.mem_cons_self
  simp only [gateToks, List.cons_append, List.nil_append, readClifford, if_true] at h ⊢
  rw [hn]
  exact h

theorem hsz_named : ∀ c : Clifford, ∀ g ∈ c.hsz, cliffordNamed (cliffordLabel g) = some g := by
  decide +kernel

/-- The product of the decomposition, in the order of the text, is the gate. -/
theorem hsz_product : ∀ c : Clifford, c.hsz ≠ [] ∧ c.hsz.tail.foldl Clifford.mul (c.hsz.headD Clifford.I) = c := by
  decide +kernel

theorem readVal_clifford (c : Clifford) {rest : List RTok} (hr : AfterValue rest) :
    readVal (reprClifford c ++ rest) = some (.cliff c, rest) := by
  obtain ⟨hne, hp⟩ := hsz_product c
  have hn := hsz_named c
  unfold reprClifford
  generalize c.hsz = gs at hne hp hn
  obtain _ | ⟨g, gs⟩ := gs
  · exact absurd rfl hne
  simp only [List.tail_cons, List.headD_cons] at hp
  have e : ((g :: gs).map fun g => [RTok.name "Clifford", .dot, .name (cliffordLabel g)]) = (g :: gs).map gateToks := rfl
  rw [e]
  split_ifs with h1
  · obtain rfl : gs = [] := by simpa using h1
    have h := readClifford_join g [] hn hr
    rw [hp, joinAt_gates] at h
    rw [joinAt_gates]
    simp only [gateToks, List.cons_append, List.nil_append] at h ⊢
    rw [readVal]
    · rw [if_neg (by decide), if_pos rfl, h]
      rfl
    all_goals obtain ⟨r, rfl | rfl⟩ := hr <;> simp
  · have h := readClifford_join g gs hn (rest := .rpar :: rest) ⟨rest, .inr rfl⟩
    rw [hp, joinAt_gates] at h
    rw [joinAt_gates]
    simp only [gateToks, List.cons_append, List.nil_append, List.append_assoc] at h ⊢
    rw [readVal]
    · rw [h]
    · simp

theorem readVal_int (n : ℕ) (rest : List RTok) : readVal (.int n :: rest) = some (.int n, rest) := rfl

theorem readArg_unnamed {t : List RTok} {v : PyVal} {rest : List RTok} (h : readVal (t ++ rest) = some (v, rest))
    (hn : ∀ s l, t ++ rest ≠ .name s :: .eq :: l) : readArg (t ++ rest) = some ((none, v), rest) := by
  unfold readArg
  split
  · rename_i s l he
    exact absurd he (hn s l)
  · rw [h]; rfl

theorem readArg_named (s : String) {t : List RTok} {v : PyVal} {rest : List RTok} (h : readVal (t ++ rest) = some (v, rest)) :
    readArg (.name s :: .eq :: (t ++ rest)) = some ((some s, v), rest) := by
  simp only [readArg]
  rw [h]; rfl

theorem not_named_set (en : Finset ℕ → List ℕ) (d : Finset ℕ) (rest : List RTok) (s : String) (l : List RTok) :
    reprSet en d ++ rest ≠ .name s :: .eq :: l := by
  simp [reprSet]

theorem not_named_measurement (m : Measurement) (rest : List RTok) (s : String) (l : List RTok) :
    reprMeasurement m ++ rest ≠ .name s :: .eq :: l := by
  cases m with
  | bloch m => simp [reprMeasurement]
  | pauli m => obtain ⟨a, s⟩ := m; cases s <;> simp [reprMeasurement]

theorem not_named_state (s : PlanarState) (rest : List RTok) (nm : String) (l : List RTok) :
    reprState s ++ rest ≠ .name nm :: .eq :: l := by
  simp [reprState]

theorem not_named_clifford (c : Clifford) (rest : List RTok) (nm : String) (l : List RTok) :
    reprClifford c ++ rest ≠ .name nm :: .eq :: l := by
  obtain ⟨hne, -⟩ := hsz_product c
  unfold reprClifford
  generalize c.hsz = gs at hne
  obtain _ | ⟨g, gs⟩ := gs
  · exact absurd rfl hne
  have e : ((g :: gs).map fun g => [RTok.name "Clifford", .dot, .name (cliffordLabel g)]) = (g :: gs).map gateToks := rfl
  rw [e, joinAt_gates]
  split_ifs <;> simp [gateToks]

/-- An argument is not the end of the arguments. -/
def StartsArg (t : List RTok) : Prop := ∃ x l, t = x :: l ∧ x ≠ .rpar

theorem readArguments_last {n : ℕ} {t : List RTok} {a : Option String × PyVal} {rest : List RTok} (hs : StartsArg t)
    (h : readArg (t ++ .rpar :: rest) = some (a, .rpar :: rest)) :
    readArguments (n + 1) (t ++ .rpar :: rest) = some ([a], rest) := by
  obtain ⟨x, l, rfl, hx⟩ := hs
  rw [readArguments]
  · rw [h]
  · intro l' he
    simp only [List.cons_append, List.cons.injEq] at he
    exact hx he.1

theorem readArguments_more {n : ℕ} {t : List RTok} {a : Option String × PyVal} {rest : List RTok} (hs : StartsArg t)
    (h : readArg (t ++ .comma :: rest) = some (a, .comma :: rest)) :
    readArguments (n + 1) (t ++ .comma :: rest) = (readArguments n rest).map fun r => (a :: r.1, r.2) := by
  obtain ⟨x, l, rfl, hx⟩ := hs
  rw [readArguments]
  · rw [h]
  · intro l' he
    simp only [List.cons_append, List.cons.injEq] at he
    exact hx he.1

/-- The texts of arguments, with the values. -/
inductive ArgTexts : List (List RTok) → List (Option String × PyVal) → Prop
  | nil : ArgTexts [] []
  | cons {t ts a as} (hs : StartsArg t) (h : ∀ rest, readArg (t ++ .rpar :: rest) = some (a, .rpar :: rest))
    (h' : ∀ rest, readArg (t ++ .comma :: rest) = some (a, .comma :: rest)) (l : ArgTexts ts as) : ArgTexts (t :: ts) (a :: as)

theorem readArguments_texts {ts : List (List RTok)} {as : List (Option String × PyVal)} (h : ArgTexts ts as) {n : ℕ} (hn : ts.length ≤ n)
    (rest : List RTok) : readArguments n (joinComma ts ++ .rpar :: rest) = some (as, rest) := by
  induction h generalizing n with
  | nil => simp [joinComma, readArguments]
  | @cons t ts a as hs h1 h2 hl ih =>
    obtain _ | n := n
    · simp at hn
    cases hl with
    | nil => exact readArguments_last hs (h1 rest)
    | @cons t' ts' a' as' hs' h1' h2' hl' =>
      have := ih (n := n) (by simpa using hn)
      simp only [joinComma, List.append_assoc, List.cons_append] at this ⊢
      rw [readArguments_more hs (h2 _), this]
      rfl

/-- A text of a value, that is not taken for a named argument. -/
structure ValText (t : List RTok) (v : PyVal) : Prop where
  starts : StartsArg t
  value : ∀ {rest}, AfterValue rest → readVal (t ++ rest) = some (v, rest)
  unnamed : ∀ rest s l, t ++ rest ≠ .name s :: .eq :: l

theorem ValText.int (n : ℕ) : ValText [.int n] (.int n) := ⟨⟨_, _, rfl, by simp⟩, fun _ => rfl, by simp⟩

theorem ValText.pair (u v : ℕ) : ValText [.lpar, .int u, .comma, .int v, .rpar] (.pair u v) := ⟨⟨_, _, rfl, by simp⟩, fun _ => rfl, by simp⟩

theorem ValText.set {en : Finset ℕ → List ℕ} (hen : ∀ d, (en d).toFinset = d) {d : Finset ℕ} (hd : d ≠ ∅) : ValText (reprSet en d) (.set (en d)) :=
  ⟨⟨_, _, rfl, by simp⟩, fun _ => readVal_set hen hd _, fun _ _ _ => not_named_set _ _ _ _ _⟩

theorem ValText.measurement (m : Measurement) : ValText (reprMeasurement m) (.meas m) := by
  refine ⟨?_, fun h => readVal_measurement m h, fun _ _ _ => not_named_measurement _ _ _ _⟩
  cases m with
  | bloch m => exact ⟨_, _, rfl, by simp⟩
  | pauli m => obtain ⟨a, s⟩ := m; cases s <;> exact ⟨_, _, rfl, by simp⟩

theorem ValText.state (s : PlanarState) : ValText (reprState s) (.state s) :=
  ⟨⟨_, _, rfl, by simp⟩, fun _ => readVal_state s _, fun _ _ _ => not_named_state _ _ _ _⟩

theorem ValText.clifford (c : Clifford) : ValText (reprClifford c) (.cliff c) := by
  refine ⟨?_, fun h => readVal_clifford c h, fun _ _ _ => not_named_clifford _ _ _ _⟩
  obtain ⟨hne, -⟩ := hsz_product c
  unfold reprClifford
  generalize c.hsz = gs at hne
  obtain _ | ⟨g, gs⟩ := gs
  · exact absurd rfl hne
  have e : ((g :: gs).map fun g => [RTok.name "Clifford", .dot, .name (cliffordLabel g)]) = (g :: gs).map gateToks := rfl
  rw [e, joinAt_gates]
  split_ifs
  · exact ⟨_, _, rfl, by simp⟩
  · exact ⟨_, _, rfl, by simp⟩

theorem ArgTexts.val {t v ts as} (h : ValText t v) (l : ArgTexts ts as) : ArgTexts (t :: ts) ((none, v) :: as) :=
  .cons h.starts (fun r => readArg_unnamed (h.value ⟨r, .inr rfl⟩) (h.unnamed _)) (fun r => readArg_unnamed (h.value ⟨r, .inl rfl⟩) (h.unnamed _)) l

theorem ArgTexts.named {t v ts as} (s : String) (h : ValText t v) (l : ArgTexts ts as) :
    ArgTexts ((.name s :: .eq :: t) :: ts) ((some s, v) :: as) :=
  .cons ⟨_, _, rfl, by simp⟩ (fun r => readArg_named s (h.value ⟨r, .inr rfl⟩)) (fun r => readArg_named s (h.value ⟨r, .inl rfl⟩)) l

theorem evalCommand_of {cls : String} {ts as c} (h : ArgTexts ts as) (hn : ts.length ≤ 4) (hb : buildCommand cls as = some c) (rest : List RTok) :
    evalCommand ([.name cls, .lpar] ++ joinComma ts ++ [.rpar] ++ rest) = some (c, rest) := by
  have := readArguments_texts h hn rest
  simp only [List.append_assoc, List.cons_append, List.nil_append, evalCommand] at this ⊢
  rw [this]
  simp [hb]

/-- The text of a command evaluates to it. -/
theorem evalCommand_repr {en : Finset ℕ → List ℕ} (hen : ∀ d, (en d).toFinset = d) (c : Command) (rest : List RTok) :
    evalCommand (reprCommand en c ++ rest) = some (c, rest) := by
  cases c with
  | N n s =>
    by_cases hs : s = PlanarState.plus
    · subst hs
      simpa [reprCommand, dataclassRepr, dataclassArgs] using
        evalCommand_of (cls := "N") (.val (.int n) .nil) (by simp) (c := .N n PlanarState.plus) (by simp [buildCommand, bindArguments, PlanarState.plus]) rest
    · simpa [reprCommand, dataclassRepr, dataclassArgs, hs] using
        evalCommand_of (cls := "N") (.val (.int n) (.val (.state s) .nil)) (by simp) (c := .N n s) (by simp [buildCommand, bindArguments]) rest
  | E u v =>
    simpa [reprCommand, dataclassRepr, dataclassArgs] using
      evalCommand_of (cls := "E") (.val (.pair u v) .nil) (by simp) (c := .E u v) (by simp [buildCommand, bindArguments]) rest
  | C n c =>
    simpa [reprCommand, dataclassRepr, dataclassArgs] using
      evalCommand_of (cls := "C") (.val (.int n) (.val (.clifford c) .nil)) (by simp) (c := .C n c) (by simp [buildCommand, bindArguments]) rest
  | X n d =>
    by_cases hd : d = ∅
    · subst hd
      simpa [reprCommand, dataclassRepr, dataclassArgs] using
        evalCommand_of (cls := "X") (.val (.int n) .nil) (by simp) (c := .X n ∅) (by simp [buildCommand, bindArguments]) rest
    · simpa [reprCommand, dataclassRepr, dataclassArgs, hd] using
        evalCommand_of (cls := "X") (.val (.int n) (.val (.set hen hd) .nil)) (by simp) (c := .X n d) (by simp [buildCommand, bindArguments, hen]) rest
  | Z n d =>
    by_cases hd : d = ∅
    · subst hd
      simpa [reprCommand, dataclassRepr, dataclassArgs] using
        evalCommand_of (cls := "Z") (.val (.int n) .nil) (by simp) (c := .Z n ∅) (by simp [buildCommand, bindArguments]) rest
    · simpa [reprCommand, dataclassRepr, dataclassArgs, hd] using
        evalCommand_of (cls := "Z") (.val (.int n) (.val (.set hen hd) .nil)) (by simp) (c := .Z n d) (by simp [buildCommand, bindArguments, hen]) rest
  | S n d =>
    by_cases hd : d = ∅
    · subst hd
      simpa [reprCommand, dataclassRepr, dataclassArgs] using
        evalCommand_of (cls := "S") (.val (.int n) .nil) (by simp) (c := .S n ∅) (by simp [buildCommand, bindArguments]) rest
    · simpa [reprCommand, dataclassRepr, dataclassArgs, hd] using
        evalCommand_of (cls := "S") (.val (.int n) (.val (.set hen hd) .nil)) (by simp) (c := .S n d) (by simp [buildCommand, bindArguments, hen]) rest
  | T =>
    simpa [reprCommand, dataclassRepr, dataclassArgs] using
      evalCommand_of (cls := "T") .nil (by simp) (c := .T) (by simp [buildCommand, bindArguments]) rest
  | M n m s t =>
    by_cases hm : m = .pauli ⟨.X, .plus⟩ <;> by_cases hs : s = ∅ <;> by_cases ht : t = ∅
    · subst hm hs ht
      simpa [reprCommand, dataclassRepr, dataclassArgs] using
        evalCommand_of (cls := "M") (.val (.int n) .nil) (by simp) (c := .M n (.pauli ⟨.X, .plus⟩) ∅ ∅) (by simp [buildCommand, bindArguments]) rest
    · subst hm hs
      simpa [reprCommand, dataclassRepr, dataclassArgs, ht] using
        evalCommand_of (cls := "M") (.val (.int n) (.named "t_domain" (.set hen ht) .nil)) (by simp) (c := .M n (.pauli ⟨.X, .plus⟩) ∅ t)
          (by simp [buildCommand, bindArguments, hen]) rest
    · subst hm ht
      simpa [reprCommand, dataclassRepr, dataclassArgs, hs] using
        evalCommand_of (cls := "M") (.val (.int n) (.named "s_domain" (.set hen hs) .nil)) (by simp) (c := .M n (.pauli ⟨.X, .plus⟩) s ∅)
          (by simp [buildCommand, bindArguments, hen]) rest
    · subst hm
      simpa [reprCommand, dataclassRepr, dataclassArgs, hs, ht] using
        evalCommand_of (cls := "M") (.val (.int n) (.named "s_domain" (.set hen hs) (.named "t_domain" (.set hen ht) .nil))) (by simp)
          (c := .M n (.pauli ⟨.X, .plus⟩) s t) (by simp [buildCommand, bindArguments, hen]) rest
    · subst hs ht
      simpa [reprCommand, dataclassRepr, dataclassArgs, hm] using
        evalCommand_of (cls := "M") (.val (.int n) (.val (.measurement m) .nil)) (by simp) (c := .M n m ∅ ∅) (by simp [buildCommand, bindArguments]) rest
    · subst hs
      simpa [reprCommand, dataclassRepr, dataclassArgs, hm, ht] using
        evalCommand_of (cls := "M") (.val (.int n) (.val (.measurement m) (.named "t_domain" (.set hen ht) .nil))) (by simp) (c := .M n m ∅ t)
          (by simp [buildCommand, bindArguments, hen]) rest
    · subst ht
      simpa [reprCommand, dataclassRepr, dataclassArgs, hm, hs] using
        evalCommand_of (cls := "M") (.val (.int n) (.val (.measurement m) (.val (.set hen hs) .nil))) (by simp) (c := .M n m s ∅)
          (by simp [buildCommand, bindArguments, hen]) rest
    · simpa [reprCommand, dataclassRepr, dataclassArgs, hm, hs, ht] using
        evalCommand_of (cls := "M") (.val (.int n) (.val (.measurement m) (.val (.set hen hs) (.val (.set hen ht) .nil)))) (by simp) (c := .M n m s t)
          (by simp [buildCommand, bindArguments, hen]) rest

theorem command_starts (en : Finset ℕ → List ℕ) (c : Command) : ∃ s l, reprCommand en c = .name s :: l := by
  cases c <;> exact ⟨_, _, rfl⟩

theorem evalCommands_repr {en : Finset ℕ → List ℕ} (hen : ∀ d, (en d).toFinset = d) (seq : List Command) {n : ℕ} (hn : seq.length ≤ n)
    (rest : List RTok) : evalCommands n (joinComma (seq.map (reprCommand en)) ++ .rbrack :: rest) = some (seq, rest) := by
  induction seq generalizing n with
  | nil => simp [joinComma, evalCommands]
  | cons c seq ih =>
    obtain _ | n := n
    · simp at hn
    have key1 : ∀ tail, evalCommands (n + 1) (reprCommand en c ++ .rbrack :: tail) = some ([c], tail) := by
      intro tail
      have hc := evalCommand_repr hen c (.rbrack :: tail)
      obtain ⟨s, l, e⟩ := command_starts en c
      rw [e] at hc ⊢
      rw [evalCommands]
      · rw [hc]
      · simp
    have key2 : ∀ tail, evalCommands (n + 1) (reprCommand en c ++ .comma :: tail) = (evalCommands n tail).map fun r => (c :: r.1, r.2) := by
      intro tail
      have hc := evalCommand_repr hen c (.comma :: tail)
      obtain ⟨s, l, e⟩ := command_starts en c
      rw [e] at hc ⊢
      rw [evalCommands]
      · rw [hc]
      · simp
    cases seq with
    | nil => simp only [List.map_cons, List.map_nil, joinComma, key1]
    | cons d seq =>
      have := ih (n := n) (by simpa using hn)
      simp only [List.map_cons, joinComma, List.append_assoc, List.cons_append, key2] at this ⊢
      rw [this]
      rfl

theorem length_joinComma {ts : List (List RTok)} (h : ∀ t ∈ ts, t ≠ []) : ts.length ≤ (joinComma ts).length := by
  induction ts with
  | nil => simp
  | cons t ts ih =>
    have h1 : 1 ≤ t.length := List.length_pos_iff.2 (h t List.mem_cons_self)
    have h2 := ih fun x hx => h x (List.mem_cons_of_mem _ hx)
    cases ts with
    | nil => simpa [joinComma] using h1
    | cons u us =>
      simp only [joinComma, List.length_append, List.length_cons] at h2 ⊢
      omega

theorem readNodeList_repr (l : List ℕ) (rest : List RTok) : readNodeList (reprNodes l ++ rest) = some (l, rest) := by
  cases l with
  | nil => simp [reprNodes, joinComma, readNodeList]
  | cons n l =>
    have := readInts_rbrack (n :: l) (by simp) rest
    simp only [reprNodes, List.cons_append, List.append_assoc] at this ⊢
    rw [readNodeList]
    · exact this
    · cases l <;> simp [joinComma]

theorem readPatternArg_inputs (a : PatternArgs) (l : List ℕ) (rest : List RTok) :
    readPatternArg a ([.name "input_nodes", .eq] ++ reprNodes l ++ rest) = some ({ a with inputs := some l }, rest) := by
  have := readNodeList_repr l rest
  simp only [List.cons_append, List.nil_append, readPatternArg, if_true]
  rw [this]
  rfl

theorem readPatternArg_outputs (a : PatternArgs) (l : List ℕ) (rest : List RTok) :
    readPatternArg a ([.name "output_nodes", .eq] ++ reprNodes l ++ rest) = some ({ a with outputs := some l }, rest) := by
  have := readNodeList_repr l rest
  simp only [List.cons_append, List.nil_append, readPatternArg, if_true]
  rw [if_neg (by decide), this]
  rfl

theorem readPatternArg_cmds {en : Finset ℕ → List ℕ} (hen : ∀ d, (en d).toFinset = d) (a : PatternArgs) (l : List Command) (rest : List RTok) :
    readPatternArg a ([.name "cmds", .eq, .lbrack] ++ joinComma (l.map (reprCommand en)) ++ [.rbrack] ++ rest) = some ({ a with cmds := some l }, rest) := by
  have hl : l.length ≤ (joinComma (l.map (reprCommand en)) ++ .rbrack :: rest).length := by
    have : (l.map (reprCommand en)).length ≤ (joinComma (l.map (reprCommand en))).length := by
      apply length_joinComma
      intro t ht
      obtain ⟨c, -, rfl⟩ := List.mem_map.1 ht
      obtain ⟨s, k, e⟩ := command_starts en c
      rw [e]; simp
    simp only [List.length_map, List.length_append] at this ⊢
    omega
  have := evalCommands_repr hen l hl rest
  simp only [List.cons_append, List.nil_append, List.append_assoc, readPatternArg, if_true]
  rw [if_neg (by decide), if_neg (by decide), this]
  rfl

/-- The texts of arguments of a pattern. -/
inductive PatTexts : PatternArgs → List (List RTok) → PatternArgs → Prop
  | nil (a) : PatTexts a [] a
  | cons {a b c t ts} (hs : StartsArg t) (h : ∀ rest, readPatternArg a (t ++ rest) = some (b, rest)) (l : PatTexts b ts c) : PatTexts a (t :: ts) c

theorem readPatternArgs_texts {a b : PatternArgs} {ts : List (List RTok)} (h : PatTexts a ts b) {n : ℕ} (hn : ts.length ≤ n) (rest : List RTok) :
    readPatternArgs n a (joinComma ts ++ .rpar :: rest) = some (b, rest) := by
  induction h generalizing n with
  | nil => simp [joinComma, readPatternArgs]
  | @cons a b c t ts hs h l ih =>
    obtain _ | n := n
    · simp at hn
    have key1 : ∀ tail, readPatternArgs (n + 1) a (t ++ .rpar :: tail) = some (b, tail) := by
      intro tail
      have h := h (.rpar :: tail)
      obtain ⟨x, l, rfl, hx⟩ := hs
      rw [readPatternArgs]
      · rw [h]
      · intro l' he
        simp only [List.cons_append, List.cons.injEq] at he
        exact hx he.1
    have key2 : ∀ tail, readPatternArgs (n + 1) a (t ++ .comma :: tail) = readPatternArgs n b tail := by
      intro tail
      have h := h (.comma :: tail)
      obtain ⟨x, l, rfl, hx⟩ := hs
      rw [readPatternArgs]
      · rw [h]
      · intro l' he
        simp only [List.cons_append, List.cons.injEq] at he
        exact hx he.1
    cases l with
    | nil => simp only [joinComma, key1]
    | @cons _ b' _ t' ts' hs' h' l' =>
      have := ih (n := n) (by simpa using hn)
      simp only [joinComma, List.append_assoc, List.cons_append, key2] at this ⊢
      exact this

/-- The text of a pattern is read as a call of the constructor with its inputs, commands and outputs (none of which is given if empty). -/
theorem evalPattern_repr {en : Finset ℕ → List ℕ} (hen : ∀ d, (en d).toFinset = d) (p : Pattern) :
    evalPattern (p.repr en) = some (Pattern.construct (if p.inputs = [] then none else some p.inputs) (if p.seq = [] then none else some p.seq)
      (if p.outputs = [] then none else some p.outputs)) := by
  have key : ∀ ts b, PatTexts ⟨none, none, none⟩ ts b → ts.length ≤ 3 →
      evalPattern ([.name "Pattern", .lpar] ++ joinComma ts ++ [.rpar]) = some (Pattern.construct b.inputs b.cmds b.outputs) := by
    intro ts b h hn
    have := readPatternArgs_texts h hn []
    simp only [List.cons_append, List.nil_append, evalPattern, if_true, List.append_assoc] at this ⊢
    rw [this]
  have ho : ∀ a : PatternArgs, PatTexts a [[RTok.name "output_nodes", .eq] ++ reprNodes p.outputs] { a with outputs := some p.outputs } := fun a =>
    .cons ⟨_, _, rfl, by simp⟩ (readPatternArg_outputs a _) (.nil _)
  have hc : ∀ (a b : PatternArgs) ts, PatTexts { a with cmds := some p.seq } ts b →
      PatTexts a (([RTok.name "cmds", .eq, .lbrack] ++ joinComma (p.seq.map (reprCommand en)) ++ [.rbrack]) :: ts) b := fun a b ts h =>
    .cons ⟨_, _, rfl, by simp⟩ (readPatternArg_cmds hen a _) h
  have hi : ∀ (a b : PatternArgs) ts, PatTexts { a with inputs := some p.inputs } ts b →
      PatTexts a (([RTok.name "input_nodes", .eq] ++ reprNodes p.inputs) :: ts) b := fun a b ts h =>
    .cons ⟨_, _, rfl, by simp⟩ (readPatternArg_inputs a _) h
  unfold Pattern.repr
  by_cases e1 : p.inputs = [] <;> by_cases e2 : p.seq = [] <;> by_cases e3 : p.outputs = []
  · simp only [e1, e2, e3, if_true, if_false]
    exact key _ _ (.nil _) (by simp)
  · simp only [e1, e2, e3, if_true, if_false]
    exact key _ _ (ho _) (by simp)
  · simp only [e1, e2, e3, if_true, if_false]
    exact key _ _ (hc _ _ _ (.nil _)) (by simp)
  · simp only [e1, e2, e3, if_true, if_false]
    exact key _ _ (hc _ _ _ (ho _)) (by simp)
  · simp only [e1, e2, e3, if_true, if_false]
    exact key _ _ (hi _ _ _ (.nil _)) (by simp)
  · simp only [e1, e2, e3, if_true, if_false]
    exact key _ _ (hi _ _ _ (ho _)) (by simp)
  · simp only [e1, e2, e3, if_true, if_false]
    exact key _ _ (hi _ _ _ (hc _ _ _ (.nil _))) (by simp)
  · simp only [e1, e2, e3, if_true, if_false]
    exact key _ _ (hi _ _ _ (hc _ _ _ (ho _))) (by simp)

/-- The outputs that adding the commands one by one to the inputs leaves. -/
def Pattern.leftOutputs (p : Pattern) : List ℕ := ((Pattern.empty p.inputs).extend p.seq).outputs

theorem extend_keeps (p : Pattern) (l : List Command) : (p.extend l).inputs = p.inputs ∧ (p.extend l).seq = p.seq ++ l := by
  induction l generalizing p with
  | nil => simp [Pattern.extend]
  | cons c l ih =>
    have e : p.extend (c :: l) = (p.add c).extend l := rfl
    rw [e, (ih _).1, (ih _).2]
    cases c <;> simp [Pattern.add]

theorem construct_some (i : Option (List ℕ)) (l : Option (List Command)) (o : List ℕ) :
    Pattern.construct i l (some o) = ((Pattern.empty (i.getD [])).extend (l.getD [])).reorderOutputNodes o := by
  cases l <;> rfl

theorem construct_none (i : Option (List ℕ)) (l : Option (List Command)) :
    Pattern.construct i l none = .ok ((Pattern.empty (i.getD [])).extend (l.getD [])) := by
  cases l <;> rfl

/-- **C77 (commands).** The text of a command is an expression whose value is the command. -/
theorem C77_command {en : Finset ℕ → List ℕ} (hen : ∀ d, (en d).toFinset = d) (c : Command) :
    evalCommand (reprCommand en c) = some (c, []) := by
  simpa using evalCommand_repr hen c []

/-- **C77 (patterns).** The text of a pattern is an expression whose value is equal to the pattern (by its own `==`), if its outputs are, in some order and
without repetition, the inputs and the prepared nodes that are not measured. -/
theorem C77_pattern {en : Finset ℕ → List ℕ} (hen : ∀ d, (en d).toFinset = d) (p : Pattern) (hp : p.outputs.Perm p.leftOutputs)
    (hn : p.outputs.Nodup) : ∃ q, evalPattern (p.repr en) = some (.ok q) ∧ p.pyEq q = true := by
  rw [evalPattern_repr hen]
  have e1 : (if p.inputs = [] then none else some p.inputs : Option (List ℕ)).getD [] = p.inputs := by split_ifs with h <;> simp [h]
  have e2 : (if p.seq = [] then none else some p.seq : Option (List Command)).getD [] = p.seq := by split_ifs with h <;> simp [h]
  have h1 := extend_keeps (Pattern.empty p.inputs) p.seq
  have h2 : (Pattern.empty p.inputs).inputs = p.inputs ∧ (Pattern.empty p.inputs).seq = [] := ⟨rfl, rfl⟩
  by_cases e3 : p.outputs = []
  · rw [if_pos e3, construct_none, e1, e2]
    refine ⟨_, rfl, ?_⟩
    have : p.leftOutputs = [] := by
      rw [e3] at hp
      exact hp.symm.eq_nil
    rw [Pattern.leftOutputs] at this
    simp [Pattern.pyEq, h1, h2, this, e3]
  · rw [if_neg e3, construct_some, e1, e2]
    have hok : assertPermutation ((Pattern.empty p.inputs).extend p.seq).outputs p.outputs = .ok () :=
      (assertPermutation_ok_iff _ _).2 ⟨List.toFinset_eq_of_perm _ _ hp, hn⟩
    refine ⟨{ (Pattern.empty p.inputs).extend p.seq with outputs := p.outputs }, ?_, ?_⟩
    · simp [Pattern.reorderOutputNodes, hok, bind, Except.bind, pure, Except.pure]
    · simp [Pattern.pyEq, h1, h2]

/-- **C77 (which patterns).** The constructor, `add` and `reorder_output_nodes` keep the condition on the outputs, as long as the nodes left by the commands
are distinct. -/
theorem C77_outputs (p : Pattern) (hp : p.outputs.Perm p.leftOutputs) (c : Command) (o : List ℕ) :
    (p.add c).outputs.Perm (p.add c).leftOutputs ∧
      (p.leftOutputs.Nodup → ∀ q, p.reorderOutputNodes o = .ok q → q.outputs.Perm q.leftOutputs ∧ q.outputs.Nodup) := by
  constructor
  · have e : (p.add c).leftOutputs = (((Pattern.empty p.inputs).extend p.seq).add c).outputs := by
      cases c <;> simp [Pattern.leftOutputs, Pattern.add, Pattern.extend]
    rw [e]
    unfold Pattern.leftOutputs at hp
    cases c <;> simp only [Pattern.add] <;> first | exact hp | exact hp.append_right _ | exact hp.erase _
  · intro hn q h
    unfold Pattern.reorderOutputNodes at h
    cases ha : assertPermutation p.outputs o with
    | error e => simp [ha, bind, Except.bind] at h
    | ok _ =>
      simp [ha, bind, Except.bind, pure, Except.pure] at h
      subst h
      have ⟨h1, h2⟩ := (assertPermutation_ok_iff _ _).1 ha
      refine ⟨?_, h2⟩
      have e : ({ p with outputs := o } : Pattern).leftOutputs = p.leftOutputs := rfl
      rw [e]
      refine List.Perm.trans ?_ hp
      exact (List.perm_ext_iff_of_nodup h2 (hp.nodup_iff.2 hn)).2 fun a => by rw [← List.mem_toFinset, h1, List.mem_toFinset]

theorem C77_constructed (i : Option (List ℕ)) (l : Option (List Command)) (o : Option (List ℕ)) {p : Pattern} (h : Pattern.construct i l o = .ok p)
    (hn : p.leftOutputs.Nodup) : p.outputs.Perm p.leftOutputs ∧ p.outputs.Nodup := by
  have key : ∀ (l : List Command), ((Pattern.empty (i.getD [])).extend l).outputs.Perm ((Pattern.empty (i.getD [])).extend l).leftOutputs := by
    intro l
    have := extend_keeps (Pattern.empty (i.getD [])) l
    unfold Pattern.leftOutputs
    rw [this.1, this.2]
    exact List.Perm.refl _
  generalize hl' : l.getD [] = l' at *
  cases o with
  | none =>
    rw [construct_none, hl', Except.ok.injEq] at h
    subst h
    exact ⟨key l', (key l').nodup_iff.2 hn⟩
  | some o =>
    rw [construct_some, hl'] at h
    have hl : p.leftOutputs = ((Pattern.empty (i.getD [])).extend l').leftOutputs := by
      simp only [Pattern.reorderOutputNodes] at h
      cases ha : assertPermutation ((Pattern.empty (i.getD [])).extend l').outputs o with
      | error e => simp [ha, bind, Except.bind] at h
      | ok _ =>
        simp [ha, bind, Except.bind, pure, Except.pure] at h
        subst h
        rfl
    exact (C77_outputs _ (key l') .T o).2 (hl ▸ hn) p h

/-- Non-vacuity: a pattern with a sign, a plane, both domains, a state and a Clifford gate. -/
noncomputable def reprExample : Pattern where
  inputs := [0]
  nNode := 3
  seq := [.N 1 PlanarState.plus, .N 2 ⟨.XZ, 0⟩, .E 0 1, .M 0 (.pauli ⟨.Y, .minus⟩) ∅ ∅, .M 1 (.bloch ⟨-1 / 4, .XY⟩) {0} {0}, .C 2 Clifford.Y, .X 2 {1}]
  outputs := [2]

/-- An order of the sets: the increasing one. -/
def sortedNodes (d : Finset ℕ) : List ℕ := d.sort (· ≤ ·)

theorem sortedNodes_ok (d : Finset ℕ) : (sortedNodes d).toFinset = d := by simp [sortedNodes]

example : ∃ q, evalPattern (reprExample.repr sortedNodes) = some (.ok q) ∧ reprExample.pyEq q = true := by
  refine C77_pattern sortedNodes_ok _ ?_ (by simp [reprExample])
  simp [Pattern.leftOutputs, Pattern.extend, Pattern.add, Pattern.empty, reprExample]

/-- An omitted argument makes the following ones named. -/
example : reprCommand (fun _ => [5]) (.M 3 (.pauli ⟨.X, .plus⟩) ∅ {5}) =
    [.name "M", .lpar, .int 3, .comma, .name "t_domain", .eq, .lbrace, .int 5, .rbrace, .rpar] := by
  simp [reprCommand, dataclassRepr, dataclassArgs, joinComma, reprSet]

end Graphix
