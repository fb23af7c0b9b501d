import Verif.Spec.PrintedPattern
import Verif.Props.PrettyPrint
import Verif.Props.Clifford

/-!
# C73: printed patterns, flows and corrections
-/

namespace Graphix

open scoped Classical

/-! ### Angles -/

theorem read_frac (q : ℚ) :
    readNumber (if q.den = 1 then
      match q.num.natAbs with
      | 0 => [PTok.nat 0]
      | 1 => signStr q.num ++ [.pi]
      | k => signStr q.num ++ [.nat k, .pi]
    else signStr q.num ++ (if q.num.natAbs = 1 then [PTok.pi] else [.nat q.num.natAbs, .pi]) ++ [.div, .nat q.den]) =
      some (((q : ℝ) * Real.pi : ℝ) : ℂ) := by
  have hval : (q : ℂ) = (q.num : ℂ) / q.den := Rat.cast_def q
  have hsgn := sign_natAbs q.num
  have htarget : ((((q : ℝ) * Real.pi : ℝ)) : ℂ) = (if q.num < 0 then (-1 : ℂ) else 1) * (q.num.natAbs : ℂ) * Real.pi / q.den := by
    push_cast
    rw [hsgn, hval]; ring
  rw [htarget]
  by_cases hden : q.den = 1
  · rw [if_pos hden, hden]
    generalize q.num.natAbs = k
    have hs : ∀ l : List PTok, l ≠ [] → l.head? ≠ some .neg → (readFactors (if q.num < 0 then (-1 : ℂ) else 1) l).2 = [] →
        readNumber (signStr q.num ++ l) = some (readFactors (if q.num < 0 then (-1 : ℂ) else 1) l).1 := by
      intro l h1 h2 h3
      refine readNumber_of_signed (by simp [h1]) ?_
      have := readSigned_sign q.num l [] h2 h1
      rw [List.append_nil] at this
      rw [this, ← h3]
    match k with
    | 0 => simp [readNumber, readTerm, readSigned, readFactors]
    | 1 =>
      change readNumber (signStr q.num ++ [PTok.pi]) = _
      rw [hs _ (by simp) (by simp) rfl]
      simp [readFactors]
    | k + 2 =>
      change readNumber (signStr q.num ++ [PTok.nat (k + 2), PTok.pi]) = _
      rw [hs _ (by simp) (by simp) rfl]
      simp [readFactors]
  · rw [if_neg hden]
    have hs : ∀ l : List PTok, l ≠ [] → l.head? ≠ some .neg → (readFactors (if q.num < 0 then (-1 : ℂ) else 1) l).2 = [] →
        readNumber (signStr q.num ++ l) = some (readFactors (if q.num < 0 then (-1 : ℂ) else 1) l).1 := by
      intro l h1 h2 h3
      refine readNumber_of_signed (by simp [h1]) ?_
      have := readSigned_sign q.num l [] h2 h1
      rw [List.append_nil] at this
      rw [this, ← h3]
    rw [List.append_assoc]
    by_cases h1 : q.num.natAbs = 1
    · rw [if_pos h1, h1, hs _ (by simp) (by simp) rfl]
      simp [readFactors]
    · rw [if_neg h1, hs _ (by simp) (by simp) rfl]
      simp [readFactors]

/-- The angle that is read has a relative error of at most `1e-9`. -/
theorem read_angleToStr (env : PpEnv) (a : ℝ) :
    ∃ x : ℝ, readNumber (angleToStr env a) = some ((x * Real.pi : ℝ) : ℂ) ∧ |a - x| ≤ 1 / 10 ^ 9 * max |a| |x| := by
  unfold angleToStr
  simp only
  by_cases h : Isclose (1 / 10 ^ 9) 0 a (env.lim 1000 a)
  · rw [if_neg (not_not.2 h)]
    refine ⟨(env.lim 1000 a : ℝ), ?_, ?_⟩
    · exact read_frac (env.lim 1000 a)
    · unfold Isclose at h
      refine h.trans (max_le le_rfl ?_)
      positivity
  · rw [if_pos h]
    refine ⟨a, readNumber_of_signed (decToks_ne _) (by have := read_decToks (a * Real.pi) []; rwa [List.append_nil] at this), ?_⟩
    rw [sub_self, abs_zero]
    positivity

/-! ### Commands -/

theorem readNodes_comma (l : List ℕ) (rest : List CTok) : readNodes (commaNodes l ++ .rbrace :: rest) = some (l, rest) := by
  induction l with
  | nil => rfl
  | cons n l ih =>
    cases l with
    | nil => rfl
    | cons m l =>
      change readNodes (.node n :: .comma :: (commaNodes (m :: l) ++ .rbrace :: rest)) = _
      rw [readNodes, ih]
      rfl

/-- The iteration order of a set lists its elements. -/
def NodeEnum (en : Finset ℕ → List ℕ) : Prop := ∀ s, ShowsSet s (en s)

theorem NodeEnum.empty {en : Finset ℕ → List ℕ} (h : NodeEnum en) : en ∅ = [] := by
  rw [List.eq_nil_iff_forall_not_mem]
  intro n hn
  exact absurd (((h ∅).2 n).1 hn) (Finset.notMem_empty n)

theorem showsSet_empty : ShowsSet ∅ [] := ⟨List.nodup_nil, by simp⟩

theorem readDomain_arg {en : Finset ℕ → List ℕ} (hen : NodeEnum en) (d : Finset ℕ) (rest : List CTok) :
    ∃ l, readDomain (domainArg en d ++ .rpar :: rest) = some (l, rest) ∧ ShowsSet d l := by
  unfold domainArg
  split_ifs with h
  · subst h
    exact ⟨[], rfl, showsSet_empty⟩
  · refine ⟨en d, ?_, hen d⟩
    have : [CTok.comma] ++ domainToStr en d ++ .rpar :: rest = .comma :: .lbrace :: (commaNodes (en d) ++ .rbrace :: (.rpar :: rest)) := by
      simp [domainToStr]
    rw [this, readDomain, readNodes_comma]

theorem readArgs_meas (env : PpEnv) (m : Measurement) (rest : List CTok) :
    ∃ r, readArgs (measurementArgs env m ++ .rpar :: rest) = some (r, rest) ∧ ShowsMeas m r := by
  cases m with
  | pauli m =>
    unfold measurementArgs
    simp only
    split_ifs with h
    · exact ⟨_, rfl, h.2.symm, h.1.symm⟩
    · exact ⟨_, rfl, rfl, rfl⟩
  | bloch m =>
    obtain ⟨x, h1, h2⟩ := read_angleToStr env m.angle
    unfold measurementArgs
    simp only
    split_ifs with h
    · refine ⟨.bloch m.plane ((x * Real.pi : ℝ) : ℂ), ?_, rfl, x, rfl, h2⟩
      simp only [List.cons_append, List.nil_append, readArgs, h1, Option.map_some]
    · refine ⟨.bloch .XY ((x * Real.pi : ℝ) : ℂ), ?_, (not_not.1 h).symm, x, rfl, h2⟩
      simp only [List.cons_append, List.nil_append, readArgs, h1, Option.map_some]

theorem readCommand_str (env : PpEnv) {en : Finset ℕ → List ℕ} (hen : NodeEnum en) (c : Command) (rest : List CTok)
    (hrest : ∀ l, rest ≠ .lbrace :: l) :
    ∃ r, readCommand (commandToStr env en c ++ rest) = some (r, rest) ∧ ShowsCmd c r := by
  cases c with
  | N n st => exact ⟨_, rfl, rfl⟩
  | E u v => exact ⟨_, rfl, rfl, rfl⟩
  | C n c => exact ⟨_, rfl, rfl, rfl⟩
  | T => exact ⟨_, rfl, trivial⟩
  | X n d =>
    obtain ⟨l, h1, h2⟩ := readDomain_arg hen d rest
    refine ⟨.X n l, ?_, rfl, h2⟩
    have : commandToStr env en (.X n d) ++ rest = .kw .X :: .lpar :: .node n :: (domainArg en d ++ .rpar :: rest) := by simp [commandToStr]
    rw [this]
    simp only [readCommand, h1, Option.map_some]
  | Z n d =>
    obtain ⟨l, h1, h2⟩ := readDomain_arg hen d rest
    refine ⟨.Z n l, ?_, rfl, h2⟩
    have : commandToStr env en (.Z n d) ++ rest = .kw .Z :: .lpar :: .node n :: (domainArg en d ++ .rpar :: rest) := by simp [commandToStr]
    rw [this]
    simp only [readCommand, h1, Option.map_some]
  | S n d =>
    obtain ⟨l, h1, h2⟩ := readDomain_arg hen d rest
    refine ⟨.S n l, ?_, rfl, h2⟩
    have : commandToStr env en (.S n d) ++ rest = .kw .S :: .lpar :: .node n :: (domainArg en d ++ .rpar :: rest) := by simp [commandToStr]
    rw [this]
    simp only [readCommand, h1, Option.map_some]
  | M n m s t =>
    unfold commandToStr
    simp only
    by_cases hst : s = ∅ ∧ t = ∅
    · obtain ⟨rfl, rfl⟩ := hst
      obtain ⟨r, h1, h2⟩ := readArgs_meas env m rest
      refine ⟨.M n r [] [], ?_, rfl, h2, showsSet_empty, showsSet_empty⟩
      rw [if_pos rfl, if_pos ⟨rfl, rfl⟩]
      have : [CTok.kw .M, .lpar, .node n] ++ measurementArgs env m ++ [.rpar] ++ rest =
          .kw .M :: .lpar :: .node n :: (measurementArgs env m ++ .rpar :: rest) := by simp
      rw [this]
      simp only [readCommand, h1, Option.map_some]
    · rw [if_neg hst]
      have hb : ∀ tl, ∃ r sl, readBracket tl ([CTok.kw .M, .lpar, .node n] ++ measurementArgs env m ++ [.rpar] ++ [.rbrack] ++
          ((if s = ∅ then [] else domainToStr en s) ++ rest)) = some (.M n r sl tl, rest) ∧ ShowsMeas m r ∧ ShowsSet s sl := by
        intro tl
        by_cases hs : s = ∅
        · subst hs
          obtain ⟨r, h1, h2⟩ := readArgs_meas env m (.rbrack :: rest)
          refine ⟨r, [], ?_, h2, showsSet_empty⟩
          have : [CTok.kw .M, .lpar, .node n] ++ measurementArgs env m ++ [.rpar] ++ [.rbrack] ++ (([] : List CTok) ++ rest) =
              .kw .M :: .lpar :: .node n :: (measurementArgs env m ++ .rpar :: (.rbrack :: rest)) := by simp
          rw [if_pos rfl, this]
          unfold readBracket
          dsimp only
          rw [h1]
          split
          · rename_i heq
            simp only [Option.some.injEq, Prod.mk.injEq, List.cons.injEq, true_and] at heq
            exact absurd heq.2 (hrest _)
          · rename_i heq
            simp only [Option.some.injEq, Prod.mk.injEq, List.cons.injEq, true_and] at heq
            rw [heq.1, heq.2]
          · rename_i h3 h4
            exact absurd rfl (h4 r rest)
        · obtain ⟨r, h1, h2⟩ := readArgs_meas env m (.rbrack :: .lbrace :: (commaNodes (en s) ++ .rbrace :: rest))
          refine ⟨r, en s, ?_, h2, hen s⟩
          have : [CTok.kw .M, .lpar, .node n] ++ measurementArgs env m ++ [.rpar] ++ [.rbrack] ++ (domainToStr en s ++ rest) =
              .kw .M :: .lpar :: .node n :: (measurementArgs env m ++ .rpar :: (.rbrack :: .lbrace :: (commaNodes (en s) ++ .rbrace :: rest))) := by
            simp [domainToStr]
          rw [if_neg hs, this]
          unfold readBracket
          dsimp only
          rw [h1]
          dsimp only
          rw [readNodes_comma]
          rfl
      have e : (if s = ∅ then (if t = ∅ then [] else domainToStr en t) ++ ([CTok.lbrack] ++ ([CTok.kw .M, .lpar, .node n] ++ measurementArgs env m ++ [.rpar]) ++ [.rbrack])
          else (if t = ∅ then [] else domainToStr en t) ++ ([CTok.lbrack] ++ ([CTok.kw .M, .lpar, .node n] ++ measurementArgs env m ++ [.rpar]) ++ [.rbrack]) ++ domainToStr en s) ++ rest =
          (if t = ∅ then [] else domainToStr en t) ++ (.lbrack :: ([CTok.kw .M, .lpar, .node n] ++ measurementArgs env m ++ [.rpar] ++ [.rbrack] ++
          ((if s = ∅ then [] else domainToStr en s) ++ rest))) := by
        split_ifs <;> simp
      rw [e]
      by_cases ht : t = ∅
      · subst ht
        obtain ⟨r, sl, h1, h2, h3⟩ := hb []
        refine ⟨.M n r sl [], ?_, rfl, h2, h3, showsSet_empty⟩
        rw [if_pos rfl, List.nil_append, readCommand, h1]
      · obtain ⟨r, sl, h1, h2, h3⟩ := hb (en t)
        refine ⟨.M n r sl (en t), ?_, rfl, h2, h3, hen t⟩
        rw [if_neg ht]
        have e2 : ∀ x : List CTok, domainToStr en t ++ x = .lbrace :: (commaNodes (en t) ++ .rbrace :: x) := by
          intro x; simp [domainToStr]
        rw [e2, readCommand, readNodes_comma]
        exact h1

theorem commandToStr_head (env : PpEnv) (en : Finset ℕ → List ℕ) (c : Command) :
    commandToStr env en c ≠ [] ∧ ∀ k l, commandToStr env en c ++ l ≠ [.more k] := by
  cases c with
  | M n m s t =>
    unfold commandToStr
    simp only
    split_ifs <;> simp [domainToStr]
  | _ => constructor <;> simp [commandToStr]

/-- A sequence of commands is read in order. -/
theorem readSeq_join (env : PpEnv) {en : Finset ℕ → List ℕ} (hen : NodeEnum en) (l : List Command) :
    ∀ (fuel : ℕ) (tail : List CTok) (k : ℤ), (tail = [] ∧ k = 0 ∨ tail = [.more k]) → l.length ≤ fuel →
      ∃ r, readSeq fuel (joinWith [.space] (l.map (commandToStr env en)) ++ tail) = some (r, k) ∧ List.Forall₂ ShowsCmd l r := by
  induction l with
  | nil =>
    intro fuel tail k ht _
    rcases ht with ⟨rfl, rfl⟩ | rfl
    · exact ⟨[], by cases fuel <;> rfl, .nil⟩
    · exact ⟨[], by cases fuel <;> rfl, .nil⟩
  | cons c l ih =>
    intro fuel tail k ht hf
    obtain ⟨fuel, rfl⟩ : ∃ f, fuel = f + 1 := ⟨fuel - 1, by simp at hf; omega⟩
    obtain ⟨hne, hmore⟩ := commandToStr_head env en c
    cases l with
    | nil =>
      have htl : ∀ x, tail ≠ .lbrace :: x := by
        rintro x rfl
        rcases ht with ⟨h, -⟩ | h <;> cases h
      obtain ⟨r, h1, h2⟩ := readCommand_str env hen c tail htl
      refine ⟨[r], ?_, .cons h2 .nil⟩
      change readSeq (fuel + 1) (commandToStr env en c ++ tail) = _
      have hm := hmore
      generalize hx : commandToStr env en c ++ tail = x at h1
      have hx1 : x ≠ [] := by rw [← hx]; simp [hne]
      have hx2 : ∀ k, x ≠ [.more k] := fun k => by rw [← hx]; exact hm k tail
      rw [readSeq]
      · rw [h1]
        rcases ht with ⟨rfl, rfl⟩ | rfl <;> rfl
      · exact hx1
      · exact fun k h => hx2 k h
    | cons c' l =>
      obtain ⟨rs, h3, h4⟩ := ih fuel tail k ht (by simp at hf ⊢; omega)
      obtain ⟨r, h1, h2⟩ := readCommand_str env hen c (.space :: (joinWith [.space] ((c' :: l).map (commandToStr env en)) ++ tail)) (fun x h => by cases h)
      refine ⟨r :: rs, ?_, .cons h2 h4⟩
      have e : joinWith [.space] ((c :: c' :: l).map (commandToStr env en)) ++ tail =
          commandToStr env en c ++ (.space :: (joinWith [.space] ((c' :: l).map (commandToStr env en)) ++ tail)) := by
        simp [joinWith]
      rw [e]
      generalize hx : commandToStr env en c ++ _ = x at h1
      have hx1 : x ≠ [] := by rw [← hx]; simp
      have hx2 : ∀ k, x ≠ [.more k] := fun k => by rw [← hx]; exact hmore k _
      rw [readSeq]
      · rw [h1]
        dsimp only
        rw [h3]
        rfl
      · exact hx1
      · exact fun k h => hx2 k h

theorem length_join (env : PpEnv) (en : Finset ℕ → List ℕ) (l : List Command) :
    l.length ≤ (joinWith [.space] (l.map (commandToStr env en))).length := by
  induction l with
  | nil => simp
  | cons c l ih =>
    have := List.length_pos_iff.2 (commandToStr_head env en c).1
    cases l with
    | nil => simp only [List.map_cons, List.map_nil, joinWith, List.length_cons, List.length_nil]; omega
    | cons c' l =>
      simp only [List.map_cons, joinWith, List.length_append, List.length_cons, List.length_nil] at ih ⊢
      omega

/-- **C73** `to_ascii` of every pattern, with every selection of kinds, order and limit (at least 1): a reader finds, in order, the selected commands, or
the first `limit - 1` of them when there are more than `limit`, and the number of commands that are omitted. -/
theorem C73_pattern_to_str (env : PpEnv) (en : Finset ℕ → List ℕ) (hen : NodeEnum en) (p : Pattern) (leftToRight : Bool) (limit : Option ℤ)
    (hlimit : ∀ k ∈ limit, 1 ≤ k) (target : Option (Pattern.Kind → Bool)) (selected shown : List Command)
    (hsel : selected = (if leftToRight then id else List.reverse) (p.seq.filter fun c => ∀ t ∈ target, t (Pattern.kindOf c)))
    (hshown : shown = if ∀ k ∈ limit, (selected.length : ℤ) ≤ k then selected else selected.take (limit.getD 0 - 1).toNat) :
    ∃ r, readPattern (patternToStr env en p leftToRight limit target) = some (r, (selected.length : ℤ) - shown.length) ∧
      List.Forall₂ ShowsCmd shown r := by
  have hpc : printedCommands p.seq leftToRight target = selected := by
    rw [hsel]
    unfold printedCommands
    cases target with
    | none => cases leftToRight <;> simp
    | some t => cases leftToRight <;> simp
  have key : ∀ l tail k, (tail = [] ∧ k = 0 ∨ tail = [CTok.more k]) →
      ∃ r, readPattern (joinWith [.space] (l.map (commandToStr env en)) ++ tail) = some (r, k) ∧ List.Forall₂ ShowsCmd l r := by
    intro l tail k ht
    refine readSeq_join env hen l _ tail k ht ?_
    rw [List.length_append]
    have := length_join env en l
    omega
  unfold patternToStr
  simp only [hpc]
  cases limit with
  | none =>
    rw [if_pos (by simp)] at hshown
    subst hshown
    obtain ⟨r, h1, h2⟩ := key shown [] 0 (Or.inl ⟨rfl, rfl⟩)
    rw [List.append_nil] at h1
    exact ⟨r, by rw [sub_self]; exact h1, h2⟩
  | some k =>
    have hk := hlimit k rfl
    dsimp only
    by_cases hlen : (selected.length : ℤ) > k
    · rw [if_neg (by simpa using hlen)] at hshown
      rw [if_pos hlen]
      have e : pySlice selected (k - 1) = shown := by
        unfold pySlice
        rw [if_pos (by omega), hshown]
        rfl
      rw [e]
      obtain ⟨r, h1, h2⟩ := key shown [.more ((selected.length : ℤ) - k + 1)] _ (Or.inr rfl)
      refine ⟨r, ?_, h2⟩
      rw [h1, hshown, List.length_take, Option.getD_some]
      congr 2
      omega
    · rw [if_pos (by simpa using hlen)] at hshown
      subst hshown
      rw [if_neg hlen]
      obtain ⟨r, h1, h2⟩ := key shown [] 0 (Or.inl ⟨rfl, rfl⟩)
      rw [List.append_nil] at h1
      exact ⟨r, by rw [sub_self]; exact h1, h2⟩

/-! ### What the text does not say -/

/-- **C73, failure.** With `limit = 0` (accepted), the text of a nonempty pattern has all its commands but one and says that it omits one more than all of
them. -/
theorem C73_limit_zero (env : PpEnv) (en : Finset ℕ → List ℕ) (hen : NodeEnum en) (p : Pattern) (hp : p.seq ≠ []) :
    ∃ r, readPattern (patternToStr env en p true (some 0) none) = some (r, (p.seq.length : ℤ) + 1) ∧ r.length = p.seq.length - 1 := by
  have hlen := List.length_pos_iff.2 hp
  have e : pySlice p.seq (0 - 1) = p.seq.take (p.seq.length - 1) := by
    unfold pySlice
    rw [if_neg (by norm_num)]
    congr 1
    omega
  have htext : patternToStr env en p true (some 0) none =
      joinWith [.space] ((p.seq.take (p.seq.length - 1)).map (commandToStr env en)) ++ [CTok.more ((p.seq.length : ℤ) + 1)] := by
    unfold patternToStr printedCommands
    simp only [if_true]
    rw [if_pos (by omega), e]
    simp
  rw [htext]
  obtain ⟨r, h1, h2⟩ := readSeq_join env hen (p.seq.take (p.seq.length - 1))
    (joinWith [.space] ((p.seq.take (p.seq.length - 1)).map (commandToStr env en)) ++ [CTok.more ((p.seq.length : ℤ) + 1)]).length
    [.more ((p.seq.length : ℤ) + 1)] _ (Or.inr rfl) (by
      rw [List.length_append]
      have := length_join env en (p.seq.take (p.seq.length - 1))
      omega)
  refine ⟨r, h1, ?_⟩
  rw [← h2.length_eq, List.length_take]
  omega

/-- **C73, failure.** The text does not determine the Clifford gate of a command: two gates that differ by more than a phase have the same label. -/
theorem C73_clifford_label : ∃ c d : Clifford, ¬ MatPhaseEq c.matrix d.matrix ∧
    ∀ env en leftToRight limit target,
      patternToStr env en ⟨[0], 1, [.C 0 c], [0]⟩ leftToRight limit target = patternToStr env en ⟨[0], 1, [.C 0 d], [0]⟩ leftToRight limit target := by
  refine ⟨Clifford.ofFin 16, Clifford.ofFin 17, fun h => ?_, fun env en ltr limit target => ?_⟩
  · exact absurd (C01_distinct _ _ h) (by decide)
  · have hl : cliffordLabel (Clifford.ofFin 16) = cliffordLabel (Clifford.ofFin 17) := rfl
    have hc : commandToStr env en (.C 0 (Clifford.ofFin 16)) = commandToStr env en (.C 0 (Clifford.ofFin 17)) := by
      simp only [commandToStr, hl]
    have hpc : ∀ c, printedCommands [Command.C 0 c] ltr target = if (∀ t ∈ target, t .C) then [Command.C 0 c] else [] := by
      intro c
      unfold printedCommands
      cases target with
      | none => cases ltr <;> simp
      | some t => cases h : t .C <;> cases ltr <;> simp [Pattern.kindOf, h]
    unfold patternToStr
    simp only [hpc]
    split_ifs
    · cases limit with
      | none => simp [hc]
      | some k =>
        have : ∀ c : Clifford, (pySlice [Command.C 0 c] (k - 1)).map (commandToStr env en) = pySlice [commandToStr env en (.C 0 c)] (k - 1) := by
          intro c; unfold pySlice; split_ifs <;> rw [List.map_take] <;> rfl
        simp only [this, hc, List.length_cons, List.length_nil, List.map_cons, List.map_nil]
    · rfl

/-- **C73, failure.** The text does not say in which state a node is prepared. -/
theorem C73_state_lost (env : PpEnv) (en : Finset ℕ → List ℕ) (n : ℕ) (s s' : PlanarState) :
    commandToStr env en (.N n s) = commandToStr env en (.N n s') := rfl

/-! ### Flows and corrections -/

/-- What is read of a function from nodes to sets, in its order. -/
def ShowsItems (f : PyDict ℕ (Finset ℕ)) (r : List (ℕ × List ℕ)) : Prop := List.Forall₂ (fun kv kr => kr.1 = kv.1 ∧ ShowsSet kv.2 kr.2) f r

theorem readItems_corr {en : Finset ℕ → List ℕ} (hen : NodeEnum en) (name : String) (f : PyDict ℕ (Finset ℕ)) (rest : List CTok) :
    ∀ fuel, f.length ≤ fuel → ∃ r, readItems name fuel (correctionToStr en name f ++ .semi :: rest) = some (r, rest) ∧ ShowsItems f r := by
  unfold correctionToStr
  induction f with
  | nil => exact fun fuel _ => ⟨[], by cases fuel <;> rfl, .nil⟩
  | cons kv f ih =>
    intro fuel hf
    obtain ⟨fuel, rfl⟩ : ∃ f, fuel = f + 1 := ⟨fuel - 1, by simp at hf; omega⟩
    cases f with
    | nil =>
      refine ⟨[(kv.1, en kv.2)], ?_, .cons ⟨rfl, hen _⟩ .nil⟩
      have : joinWith [.comma] ([kv].map fun kv => [CTok.name name, .lpar, .node kv.1, .rpar, .eq] ++ setToStr en kv.2) ++ .semi :: rest =
          .name name :: .lpar :: .node kv.1 :: .rpar :: .eq :: .lbrace :: (commaNodes (en kv.2) ++ .rbrace :: (.semi :: rest)) := by
        simp [joinWith, setToStr]
      rw [this]
      simp only [readItems, if_true, readNodes_comma]
    | cons kv' f =>
      obtain ⟨r, h1, h2⟩ := ih fuel (by simp at hf ⊢; omega)
      refine ⟨(kv.1, en kv.2) :: r, ?_, .cons ⟨rfl, hen _⟩ h2⟩
      have : joinWith [.comma] ((kv :: kv' :: f).map fun kv => [CTok.name name, .lpar, .node kv.1, .rpar, .eq] ++ setToStr en kv.2) ++ .semi :: rest =
          .name name :: .lpar :: .node kv.1 :: .rpar :: .eq :: .lbrace :: (commaNodes (en kv.2) ++ .rbrace :: (.comma ::
            (joinWith [.comma] ((kv' :: f).map fun kv => [CTok.name name, .lpar, .node kv.1, .rpar, .eq] ++ setToStr en kv.2) ++ .semi :: rest))) := by
        simp [joinWith, setToStr]
      rw [this]
      simp only [readItems, if_true, readNodes_comma, h1, Option.map_some]

theorem readLayers_join {en : Finset ℕ → List ℕ} (hen : NodeEnum en) (l : List (Finset ℕ)) :
    ∀ fuel, l.length ≤ fuel → ∃ r, readLayers fuel (joinWith [.lt] (l.map (setToStr en))) = some r ∧ List.Forall₂ ShowsSet l r := by
  induction l with
  | nil => exact fun fuel _ => ⟨[], by cases fuel <;> rfl, .nil⟩
  | cons s l ih =>
    intro fuel hf
    obtain ⟨fuel, rfl⟩ : ∃ f, fuel = f + 1 := ⟨fuel - 1, by simp at hf; omega⟩
    cases l with
    | nil =>
      refine ⟨[en s], ?_, .cons (hen _) .nil⟩
      have : joinWith [.lt] ([s].map (setToStr en)) = .lbrace :: (commaNodes (en s) ++ .rbrace :: []) := by simp [joinWith, setToStr]
      rw [this]
      simp only [readLayers, readNodes_comma]
    | cons s' l =>
      obtain ⟨r, h1, h2⟩ := ih fuel (by simp at hf ⊢; omega)
      refine ⟨en s :: r, ?_, .cons (hen _) h2⟩
      have : joinWith [.lt] ((s :: s' :: l).map (setToStr en)) =
          .lbrace :: (commaNodes (en s) ++ .rbrace :: (.lt :: joinWith [.lt] ((s' :: l).map (setToStr en)))) := by simp [joinWith, setToStr]
      rw [this]
      simp only [readLayers, readNodes_comma, h1, Option.map_some]

theorem length_joinWith {α : Type} (sep : List CTok) (f : α → List CTok) (hf : ∀ a, f a ≠ []) (l : List α) :
    l.length ≤ (joinWith sep (l.map f)).length := by
  induction l with
  | nil => simp
  | cons c l ih =>
    have := List.length_pos_iff.2 (hf c)
    cases l with
    | nil => simp only [List.map_cons, List.map_nil, joinWith, List.length_cons, List.length_nil]; omega
    | cons c' l =>
      simp only [List.map_cons, joinWith, List.length_append, List.length_cons] at ih ⊢
      omega

theorem length_correction (en : Finset ℕ → List ℕ) (name : String) (f : PyDict ℕ (Finset ℕ)) : f.length ≤ (correctionToStr en name f).length :=
  length_joinWith _ (fun kv : ℕ × Finset ℕ => [CTok.name name, .lpar, .node kv.1, .rpar, .eq] ++ setToStr en kv.2) (fun kv => by simp) f

theorem length_order (en : Finset ℕ → List ℕ) (l : List (Finset ℕ)) : l.length ≤ (partialOrderToStr en l).length := by
  have := length_joinWith [.lt] (setToStr en) (fun s => by simp [setToStr]) l.reverse
  rwa [List.length_reverse] at this

/-- **C73** The text of a flow: a reader finds the correction function, in its order, and the layers, the first measured first. -/
theorem C73_flow_to_str (en : Finset ℕ → List ℕ) (hen : NodeEnum en) (name : String) (f : Flow) :
    ∃ items layers, readFlow name (flowToStr en name f) = some (items, layers) ∧ ShowsItems f.corr items ∧
      List.Forall₂ ShowsSet f.layers.reverse layers := by
  have e : flowToStr en name f = correctionToStr en name f.corr ++ .semi :: partialOrderToStr en f.layers := by
    simp [flowToStr, joinWith]
  obtain ⟨items, h1, h2⟩ := readItems_corr hen name f.corr (partialOrderToStr en f.layers) (flowToStr en name f).length (by
    rw [e, List.length_append]
    have := length_correction en name f.corr
    omega)
  obtain ⟨layers, h3, h4⟩ := readLayers_join hen f.layers.reverse (partialOrderToStr en f.layers).length (by
    rw [List.length_reverse]; exact length_order en f.layers)
  refine ⟨items, layers, ?_, h2, h4⟩
  unfold readFlow
  rw [e] at h1 ⊢
  rw [h1, Option.bind_some]
  dsimp only
  unfold partialOrderToStr at h3 ⊢
  rw [h3]
  rfl

/-- **C73** The text of X and Z corrections: a reader finds the X corrections, the Z corrections and the layers, the first measured first. -/
theorem C73_xzcorr_to_str (en : Finset ℕ → List ℕ) (hen : NodeEnum en) (c : XZCorrections) :
    ∃ xs zs layers, readXZ (xzcorrToStr en c) = some (xs, zs, layers) ∧ ShowsItems c.x xs ∧ ShowsItems c.z zs ∧
      List.Forall₂ ShowsSet c.layers.reverse layers := by
  set tl := correctionToStr en "z" c.z ++ .semi :: partialOrderToStr en c.layers with htl
  have e : xzcorrToStr en c = correctionToStr en "x" c.x ++ .semi :: tl := by
    simp [xzcorrToStr, joinWith, htl]
  obtain ⟨xs, h1, h2⟩ := readItems_corr hen "x" c.x tl (xzcorrToStr en c).length (by
    rw [e, List.length_append]
    have := length_correction en "x" c.x
    omega)
  obtain ⟨zs, h5, h6⟩ := readItems_corr hen "z" c.z (partialOrderToStr en c.layers) tl.length (by
    rw [htl, List.length_append]
    have := length_correction en "z" c.z
    omega)
  obtain ⟨layers, h3, h4⟩ := readLayers_join hen c.layers.reverse (partialOrderToStr en c.layers).length (by
    rw [List.length_reverse]; exact length_order en c.layers)
  refine ⟨xs, zs, layers, ?_, h2, h6, h4⟩
  unfold readXZ
  rw [e] at h1 ⊢
  rw [h1, Option.bind_some]
  dsimp only
  rw [h5, Option.bind_some]
  dsimp only
  unfold partialOrderToStr at h3 ⊢
  rw [h3]
  rfl

/-! ### Examples -/

/-- An order of iteration exists. -/
theorem nodeEnum_toList : NodeEnum fun s => s.sort (· ≤ ·) := fun s => ⟨s.sort_nodup _, fun n => s.mem_sort _⟩

/-- A pattern with commands of all kinds is read. -/
example (env : PpEnv) : ∃ r, readPattern (patternToStr env (fun s => s.sort (· ≤ ·))
      ⟨[0], 2, [.N 1 .plus, .E 0 1, .M 0 (.bloch ⟨1 / 4, .YZ⟩) {7} {8, 9}, .X 1 {0}, .Z 1 {0, 7}, .S 1 {}, .C 1 Clifford.H, .T], [1]⟩ false (some 5) none) =
    some (r, 4) ∧ r.length = 4 := by
  obtain ⟨r, h1, h2⟩ := C73_pattern_to_str env _ nodeEnum_toList
    ⟨[0], 2, [.N 1 .plus, .E 0 1, .M 0 (.bloch ⟨1 / 4, .YZ⟩) {7} {8, 9}, .X 1 {0}, .Z 1 {0, 7}, .S 1 {}, .C 1 Clifford.H, .T], [1]⟩ false (some 5)
    (by simp) none _ _ rfl rfl
  refine ⟨r, h1.trans ?_, ?_⟩
  · simp
  · rw [← h2.length_eq]
    simp

end Graphix
