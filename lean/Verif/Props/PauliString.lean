import Verif.Spec.Pauli

/-!
# Property C47: encodings of Pauli strings
-/

namespace Graphix
namespace PauliString

/-! ### Characters -/

theorem axisOfChar_charOfAxis (a : Axis) : axisOfChar (charOfAxis a) = some a := by cases a <;> rfl

theorem axisOfChar_some {c : Char} {a : Axis} (h : axisOfChar c = some a) : c = charOfAxis a := by
  unfold axisOfChar at h
  split at h <;> cases h <;> rfl

theorem get_axesOfChars (l : List Char) (i k : ℕ) :
    (axesOfChars i l).get? k = if i ≤ k then (l[k - i]?).bind axisOfChar else none := by
  induction l generalizing i with
  | nil => simp [axesOfChars]
  | cons c l ih =>
    unfold axesOfChars
    rcases hc : axisOfChar c with - | a
    · simp only []
      rw [ih]
      rcases lt_trichotomy i k with h | rfl | h
      · rw [if_pos (by omega), if_pos (by omega), show k - i = (k - (i + 1)) + 1 by omega, List.getElem?_cons_succ]
      · rw [if_neg (by omega), if_pos (by omega)]; simp [hc]
      · rw [if_neg (by omega), if_neg (by omega)]
    · simp only []
      rw [PyDict.get?_cons, ih]
      rcases lt_trichotomy i k with h | rfl | h
      · rw [if_neg (by omega), if_pos (by omega), if_pos (by omega), show k - i = (k - (i + 1)) + 1 by omega,
          List.getElem?_cons_succ]
      · simp [hc]
      · rw [if_neg (by omega), if_neg (by omega), if_neg (by omega)]

theorem axesOfChars_keys (l : List Char) (i : ℕ) :
    (axesOfChars i l).keys.Nodup ∧ ∀ k ∈ (axesOfChars i l).keys, i ≤ k ∧ k < i + l.length := by
  induction l generalizing i with
  | nil => simp [axesOfChars, PyDict.keys]
  | cons c l ih =>
    obtain ⟨h1, h2⟩ := ih (i + 1)
    unfold axesOfChars
    rcases axisOfChar c with - | a
    · simp only [List.length_cons]
      exact ⟨h1, fun k hk => by have := h2 k hk; omega⟩
    · simp only [PyDict.keys, List.map_cons, List.nodup_cons, List.length_cons]
      refine ⟨⟨fun hk => ?_, h1⟩, fun k hk => ?_⟩
      · have := h2 i hk; omega
      · rcases List.mem_cons.1 hk with rfl | hk
        · omega
        · have := h2 k hk; omega

/-! ### Bits -/

theorem get_axesOfBits (dim : ℕ) (t : ℕ → ZMod 2) (m i k : ℕ) :
    (axesOfBits dim t i m).get? k = if i ≤ k ∧ k < i + m then
      (if t k = 1 then (if t (dim + k) = 1 then some .Y else some .X) else if t (dim + k) = 1 then some .Z else none) else none := by
  have h01 : ∀ x : ZMod 2, x = 0 ∨ x = 1 := by decide
  have h10 : (1 : ZMod 2) ≠ 0 := by decide
  induction m generalizing i with
  | zero => simp [axesOfBits, show ¬ (i ≤ k ∧ k < i) by omega]
  | succ m ih =>
    have key : ∀ x : Option Axis, ((if t i = 1 then (if t (dim + i) = 1 then some .Y else some .X) else
        if t (dim + i) = 1 then some .Z else none) = x) →
        (if k = i then x else (axesOfBits dim t (i + 1) m).get? k) = if i ≤ k ∧ k < i + (m + 1) then
      (if t k = 1 then (if t (dim + k) = 1 then some .Y else some .X) else if t (dim + k) = 1 then some .Z else none) else none := by
      rintro x rfl
      by_cases hk : k = i
      · subst hk; simp
      · rw [if_neg hk, ih]
        by_cases h : i + 1 ≤ k ∧ k < i + 1 + m
        · rw [if_pos h, if_pos (show i ≤ k ∧ k < i + (m + 1) by omega)]
        · rw [if_neg h, if_neg (show ¬ (i ≤ k ∧ k < i + (m + 1)) by omega)]
    unfold axesOfBits
    rcases h01 (t i) with e1 | e1 <;> rcases h01 (t (dim + i)) with e2 | e2 <;>
      simp only [e1, e2, h10, h10.symm, and_true, and_false, if_true, if_false, and_self, PyDict.get?_cons]
    · rw [← key none (by simp [e1, e2])]
      split
      · rename_i h; subst h
        rw [ih, if_neg (by omega)]
      · rfl
    · rw [← key (some .Z) (by simp [e1, e2])]
      simp only [eq_comm]
    · rw [← key (some .X) (by simp [e1, e2])]
      simp only [eq_comm]
    · rw [← key (some .Y) (by simp [e1, e2])]
      simp only [eq_comm]

theorem axesOfBits_keys (dim : ℕ) (t : ℕ → ZMod 2) (m i : ℕ) :
    (axesOfBits dim t i m).keys.Nodup ∧ ∀ k ∈ (axesOfBits dim t i m).keys, i ≤ k ∧ k < i + m := by
  induction m generalizing i with
  | zero => simp [axesOfBits, PyDict.keys]
  | succ m ih =>
    obtain ⟨h1, h2⟩ := ih (i + 1)
    have hcons : ∀ a : Axis, (PyDict.keys ((i, a) :: axesOfBits dim t (i + 1) m)).Nodup ∧
        ∀ k ∈ PyDict.keys ((i, a) :: axesOfBits dim t (i + 1) m), i ≤ k ∧ k < i + (m + 1) := by
      intro a
      simp only [PyDict.keys, List.map_cons, List.nodup_cons]
      refine ⟨⟨fun hk => ?_, h1⟩, fun k hk => ?_⟩
      · have := h2 i hk; omega
      · rcases List.mem_cons.1 hk with rfl | hk
        · omega
        · have := h2 k hk; omega
    unfold axesOfBits
    split_ifs
    · exact hcons _
    · exact hcons _
    · exact hcons _
    · exact ⟨h1, fun k hk => by have := h2 k hk; omega⟩

/-- The bits of a Pauli string: the X part, the Z part and the sign. -/
def xbit (o : Option Axis) : ZMod 2 := match o with | some .X | some .Y => 1 | _ => 0
def zbit (o : Option Axis) : ZMod 2 := match o with | some .Z | some .Y => 1 | _ => 0

theorem toTableauLoop_spec (dim : ℕ) (l : List (ℕ × Axis)) (t : ℕ → ZMod 2) (hk : (PyDict.keys l).Nodup)
    (hr : ∀ i ∈ PyDict.keys l, i < dim) (ht : ∀ i ∈ PyDict.keys l, t i = 0 ∧ t (i + dim) = 0) :
    ∃ t', toTableauLoop dim l t = .ok t' ∧
      (∀ i < dim, t' i = if i ∈ PyDict.keys l then xbit (PyDict.get? l i) else t i) ∧
      (∀ i < dim, t' (i + dim) = if i ∈ PyDict.keys l then zbit (PyDict.get? l i) else t (i + dim)) ∧
      ∀ i, 2 * dim ≤ i → t' i = t i := by
  induction l generalizing t with
  | nil => exact ⟨t, rfl, by simp [PyDict.keys], by simp [PyDict.keys], fun _ _ => rfl⟩
  | cons e l ih =>
    obtain ⟨j, a⟩ := e
    simp only [PyDict.keys, List.map_cons, List.nodup_cons, List.mem_cons, forall_eq_or_imp] at hk hr ht
    obtain ⟨hj, hk⟩ := hk
    obtain ⟨hjr, hr⟩ := hr
    obtain ⟨⟨htx, htz⟩, ht⟩ := ht
    set t1 : ℕ → ZMod 2 := fun i => if i = j then xbit (some a) else if i = j + dim then zbit (some a) else t i with ht1
    have hstep : toTableauLoop dim ((j, a) :: l) t = toTableauLoop dim l t1 := by
      have hs : ∀ (f : ℕ → ZMod 2) i, i < 2 * dim + 1 → setBit (2 * dim + 1) f i = .ok (Function.update f i 1) :=
        fun f i h => if_pos h
      have he : ∀ f : ℕ → ZMod 2, (∀ i, f i = t1 i) → f = t1 := fun f h => funext h
      have key : ∀ f : ℕ → ZMod 2, f = t1 → toTableauLoop dim l f = toTableauLoop dim l t1 := fun f h => by rw [h]
      rw [toTableauLoop]
      cases a <;> simp only [reduceCtorEq, or_false, or_true, false_or, if_true, if_false, hs _ _ (show j < 2 * dim + 1 by omega),
        hs _ _ (show j + dim < 2 * dim + 1 by omega), bind, Except.bind, pure, Except.pure] <;>
        refine key _ (funext fun i => ?_) <;> simp only [ht1, Function.update_apply, xbit, zbit] <;>
        (rcases eq_or_ne i j with rfl | h1
         · simp [show i ≠ i + dim by omega, show dim ≠ 0 by omega, htx]
         · rcases eq_or_ne i (j + dim) with rfl | h2
           · simp [htz, show dim ≠ 0 by omega]
           · simp [h1, h2])
    have hin : ∀ i ∈ PyDict.keys l, i ≠ j := fun i hi h => hj (by subst h; exact hi)
    obtain ⟨t', h1, h2, h3, h4⟩ := ih t1 hk hr (fun i hi => by
      have := hin i hi; have := hr i hi
      simp only [ht1]
      rw [if_neg (by omega), if_neg (by omega), if_neg (by omega), if_neg (by omega)]
      exact ht i hi)
    refine ⟨t', hstep ▸ h1, fun i hi => ?_, fun i hi => ?_, fun i hi => ?_⟩
    · rw [h2 i hi, PyDict.get?_cons]
      have hm : i ∈ PyDict.keys ((j, a) :: l) ↔ i = j ∨ i ∈ PyDict.keys l := by simp [PyDict.keys]
      simp only [hm]
      by_cases h : i = j
      · subst h
        have : i ∉ PyDict.keys l := hj
        simp [ht1, this]
      · simp only [h, false_or, if_neg (Ne.symm h), ht1]
        rw [if_neg (show ¬ i = j + dim by omega)]
        simp
    · rw [h3 i hi, PyDict.get?_cons]
      have hm : i ∈ PyDict.keys ((j, a) :: l) ↔ i = j ∨ i ∈ PyDict.keys l := by simp [PyDict.keys]
      simp only [hm]
      by_cases h : i = j
      · subst h
        have : i ∉ PyDict.keys l := hj
        simp [ht1, this, show dim ≠ 0 by omega]
      · simp only [h, false_or, if_neg (Ne.symm h), ht1]
        rw [if_neg (show ¬ i + dim = j by omega), if_neg (show ¬ i + dim = j + dim by omega)]
    · rw [h4 i hi]
      simp only [ht1]
      rw [if_neg (by omega), if_neg (by omega)]

theorem toTableau_spec (p : PauliString) (hp : p.Valid) :
    ∃ t, p.toTableau = .ok t ∧ (∀ i < p.dim, t i = xbit (p.axes.get? i) ∧ t (i + p.dim) = zbit (p.axes.get? i)) ∧
      t (2 * p.dim) = if p.sign = .minus then 1 else 0 := by
  obtain ⟨t, h1, h2, h3, h4⟩ := toTableauLoop_spec p.dim p.axes (fun _ => 0) hp.keys hp.range (fun _ _ => ⟨rfl, rfl⟩)
  have hx : ∀ i < p.dim, t i = xbit (p.axes.get? i) ∧ t (i + p.dim) = zbit (p.axes.get? i) := by
    intro i hi
    rw [h2 i hi, h3 i hi]
    by_cases h : i ∈ PyDict.keys p.axes
    · rw [if_pos h, if_pos h]; exact ⟨rfl, rfl⟩
    · rw [if_neg h, if_neg h, (PyDict.get?_eq_none_iff _ _).2 h]; exact ⟨rfl, rfl⟩
  unfold toTableau
  simp only [h1, bind, Except.bind, pure, Except.pure]
  by_cases hs : p.sign = .minus
  · rw [if_pos hs]
    refine ⟨Function.update t (2 * p.dim) 1, if_pos (by omega), fun i hi => ?_, by simp [hs]⟩
    rw [Function.update_of_ne (by omega), Function.update_of_ne (by omega)]
    exact hx i hi
  · rw [if_neg hs]
    refine ⟨t, rfl, hx, ?_⟩
    rw [if_neg hs]
    exact h4 _ (le_refl _)

/-- **C47.** `PauliString.from_tableau(ps.to_tableau()) == ps`, for every Pauli string with indices in range. -/
theorem C47_tableau_roundtrip (p : PauliString) (hp : p.Valid) :
    ∃ t p', p.toTableau = .ok t ∧ fromTableau (2 * p.dim + 1) t = .ok p' ∧ p'.Eq p := by
  obtain ⟨t, h1, h2, h3⟩ := toTableau_spec p hp
  refine ⟨t, _, h1, if_neg (by omega), ?_, ?_, ?_⟩
  · show (2 * p.dim + 1) / 2 = p.dim
    omega
  · intro i
    show PyDict.get? (axesOfBits ((2 * p.dim + 1) / 2) t 0 ((2 * p.dim + 1) / 2)) i = _
    rw [show (2 * p.dim + 1) / 2 = p.dim by omega, get_axesOfBits]
    by_cases hi : i < p.dim
    · rw [if_pos (by omega), Nat.add_comm p.dim i, (h2 i hi).1, (h2 i hi).2]
      rcases p.axes.get? i with - | a
      · simp [xbit, zbit]
      · cases a <;> simp [xbit, zbit]
    · rw [if_neg (by omega)]
      symm
      rw [PyDict.get?_eq_none_iff]
      exact fun h => hi (hp.range i h)
  · show Sign.minusIf (decide (t (2 * p.dim + 1 - 1) = 1)) = p.sign
    rw [Nat.add_sub_cancel, h3]
    cases p.sign <;> simp [Sign.minusIf]

/-- **C47.** `PauliString.from_tableau(t).to_tableau() == t`, for every binary array of odd length. -/
theorem C47_tableau_roundtrip' (n : ℕ) (t : ℕ → ZMod 2) :
    ∃ p t', fromTableau (2 * n + 1) t = .ok p ∧ p.Valid ∧ p.dim = n ∧ p.toTableau = .ok t' ∧ ∀ i < 2 * n + 1, t' i = t i := by
  have hd : (2 * n + 1) / 2 = n := by omega
  have hv : PauliString.Valid ⟨n, axesOfBits n t 0 n, Sign.minusIf (decide (t (2 * n) = 1))⟩ := by
    obtain ⟨h1, h2⟩ := axesOfBits_keys n t n 0
    exact ⟨h1, fun i hi => by have := (h2 i hi).2; simpa using this⟩
  obtain ⟨t', h1, h2, h3⟩ := toTableau_spec _ hv
  refine ⟨⟨n, axesOfBits n t 0 n, Sign.minusIf (decide (t (2 * n) = 1))⟩, t', ?_, hv, rfl, h1, ?_⟩
  · unfold fromTableau
    rw [if_neg (by omega), hd]; rfl
  · simp only [] at h2 h3
    have h01 : ∀ x : ZMod 2, x = 0 ∨ x = 1 := by decide
    have h10 : (1 : ZMod 2) ≠ 0 := by decide
    have hb : ∀ i < n, t' i = t i ∧ t' (i + n) = t (i + n) := by
      intro i hi
      rw [(h2 i hi).1, (h2 i hi).2, get_axesOfBits, if_pos (by omega), Nat.add_comm n i]
      rcases h01 (t i) with e1 | e1 <;> rcases h01 (t (i + n)) with e2 | e2 <;> simp [e1, e2, xbit, zbit]
    intro i hi
    by_cases h : i < n
    · exact (hb i h).1
    · by_cases h' : i < 2 * n
      · have := (hb (i - n) (by omega)).2
        rwa [Nat.sub_add_cancel (by omega)] at this
      · have : i = 2 * n := by omega
        subst this
        rw [h3]
        rcases h01 (t (2 * n)) with e | e <;> simp [e, Sign.minusIf]

/-- **C47.** Arrays of even length are refused. -/
theorem C47_tableau_even (n : ℕ) (t : ℕ → ZMod 2) : fromTableau (2 * n) t = .error .valueError := by
  unfold fromTableau; rw [if_pos (by omega)]

/-- **C47.** `PauliString.from_str(str(ps)) == ps`, for every Pauli string with indices in range. -/
theorem C47_str_roundtrip (p : PauliString) (hp : p.Valid) : ∃ p', fromStr p.str = .ok p' ∧ p'.Eq p := by
  obtain ⟨ops, hops⟩ : ∃ ops, ops = (List.range p.dim).map fun node => match p.axes.get? node with | some a => charOfAxis a | none => 'I' :=
    ⟨_, rfl⟩
  have hany : (ops.any fun op => (axisOfChar op).isNone && op ≠ 'I') = false := by
    rw [List.any_eq_false]
    intro c hc
    rw [hops] at hc
    obtain ⟨i, -, rfl⟩ := List.mem_map.1 hc
    rcases p.axes.get? i with - | a
    · simp
    · simp [axisOfChar_charOfAxis]
  have hstr : fromStr p.str = .ok ⟨ops.length, axesOfChars 0 ops, p.sign⟩ := by
    have : p.str = (match p.sign with | .plus => '+' | .minus => '-') :: ops := by rw [hops]; rfl
    rw [this]
    unfold fromStr
    have hany' : ∀ x ∈ ops, axisOfChar x = none → x = 'I' := by simpa using hany
    cases hs : p.sign <;> simp [bind, Except.bind, pure, Except.pure] <;> exact hany'
  refine ⟨_, hstr, ?_, ?_, rfl⟩
  · simp [hops]
  · intro i
    show PyDict.get? (axesOfChars 0 ops) i = _
    rw [get_axesOfChars, if_pos (by omega), Nat.sub_zero]
    by_cases hi : i < p.dim
    · have : ops[i]? = some (match p.axes.get? i with | some a => charOfAxis a | none => 'I') := by
        rw [hops, List.getElem?_map, List.getElem?_range hi]; rfl
      rw [this, Option.bind_some]
      rcases p.axes.get? i with - | a
      · rfl
      · exact axisOfChar_charOfAxis a
    · have : ops[i]? = none := by rw [List.getElem?_eq_none_iff]; simp [hops]; omega
      rw [this]
      symm
      show p.axes.get? i = none
      rw [PyDict.get?_eq_none_iff]
      exact fun h => hi (hp.range i h)

/-- **C47.** Every string that `from_str` accepts gives a Pauli string with indices in range, whose string is the given one, up to
the optional `+`. -/
theorem C47_str_roundtrip' (s : List Char) (p : PauliString) (h : fromStr s = .ok p) :
    p.Valid ∧ (p.str = s ∨ p.str = '+' :: s) := by
  have main : ∀ (ops : List Char) (sg : Sign), (ops.any fun op => (axisOfChar op).isNone && op ≠ 'I') = false →
      PauliString.Valid ⟨ops.length, axesOfChars 0 ops, sg⟩ ∧
      PauliString.str ⟨ops.length, axesOfChars 0 ops, sg⟩ = (match sg with | .plus => '+' | .minus => '-') :: ops := by
    intro ops sg hany
    obtain ⟨h1, h2⟩ := axesOfChars_keys ops 0
    refine ⟨⟨h1, fun i hi => by have := (h2 i hi).2; simpa using this⟩, ?_⟩
    unfold str
    congr 1
    refine List.ext_getElem (by simp) fun i hi1 hi2 => ?_
    rw [List.getElem_map, List.getElem_range]
    simp only [get_axesOfChars, Nat.zero_le, if_true, Nat.sub_zero]
    rw [List.getElem?_eq_getElem hi2, Option.bind_some]
    rw [List.any_eq_false] at hany
    have := hany _ (List.getElem_mem hi2)
    rcases ha : axisOfChar ops[i] with - | a
    · simp only [ha, Option.isNone_none, Bool.true_and, decide_eq_true_eq, not_not, ne_eq] at this
      exact this.symm
    · exact (axisOfChar_some ha).symm
  rcases s with - | ⟨c, l⟩
  · cases h
    exact ⟨⟨by simp [PyDict.keys], by simp [PyDict.keys]⟩, Or.inr rfl⟩
  · unfold fromStr at h
    simp only [bind, Except.bind, pure, Except.pure] at h
    by_cases h1 : c = '+'
    · subst h1
      simp only [if_true] at h
      split at h
      · cases h
      · rename_i hany
        cases h
        obtain ⟨g1, g2⟩ := main l .plus (by simpa using hany)
        exact ⟨g1, Or.inl g2⟩
    · rw [if_neg h1] at h
      by_cases h2 : c = '-'
      · subst h2
        simp only [if_true] at h
        split at h
        · cases h
        · rename_i hany
          cases h
          obtain ⟨g1, g2⟩ := main l .minus (by simpa using hany)
          exact ⟨g1, Or.inl g2⟩
      · rw [if_neg h2] at h
        by_cases h3 : c = 'X' ∨ c = 'Y' ∨ c = 'Z' ∨ c = 'I'
        · rw [if_pos h3] at h
          split at h
          · cases h
          · rename_i hany
            cases h
            obtain ⟨g1, g2⟩ := main (c :: l) .plus (by simpa using hany)
            exact ⟨g1, Or.inr g2⟩
        · rw [if_neg h3] at h; cases h

/-- `-XIYZ`. -/
def exPs : PauliString := ⟨4, [(3, .Z), (0, .X), (2, .Y)], .minus⟩

theorem exPs_valid : exPs.Valid := ⟨by simp [exPs, PyDict.keys], by simp [exPs, PyDict.keys]⟩

example : exPs.str = "-XIYZ".toList := by decide
example : ∃ p', fromStr exPs.str = .ok p' ∧ p'.Eq exPs := C47_str_roundtrip exPs exPs_valid
example : ∃ t p', exPs.toTableau = .ok t ∧ fromTableau (2 * exPs.dim + 1) t = .ok p' ∧ p'.Eq exPs := C47_tableau_roundtrip exPs exPs_valid
example : PauliString.Valid ⟨3, [(0, .Y), (2, .X)], .plus⟩ := (C47_str_roundtrip' ['Y', 'I', 'X'] _ rfl).1

end PauliString
end Graphix
