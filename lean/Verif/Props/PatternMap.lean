import Verif.Proofs.PatternMap

/-!
# C65: measurement-wise transformations of patterns (`apply`, `map`, `infer_pauli_measurements`, `blochify`) and
parameters of patterns

`Command.onMeas g` is the specification: the command where `g` has been applied to the measurement.
-/

namespace Graphix

/-! ### `apply` -/

/-- **C65** `p.apply(f)` (in place) replaces every measurement `m` of the pattern by `f(m)`, and changes nothing
else. -/
theorem C65_apply_in_place (p : Pattern) (f : Measurement → Except PyErr Measurement) (g : Measurement → Measurement)
    (hf : ∀ n m s t, Command.M n m s t ∈ p.seq → f m = .ok (g m)) :
    p.apply f false = .ok { p with seq := p.seq.map (Command.onMeas g) } := by
  simp only [Pattern.apply, mapMeas_ok hf, bind, Except.bind, pure, Except.pure, Bool.false_eq_true, if_false]

/-- **C65** `p.map(f)` = `p.apply(f, copy=True)` on a runnable pattern builds the pattern with the same inputs,
outputs (in the same order) and commands, except that every measurement `m` is replaced by `f(m)`; its node count is
the number of its nodes. -/
theorem C65_map (p : Pattern) (hp : p.OutputsOk) (hr : p.checkRunnability = .ok ())
    (f : Measurement → Except PyErr Measurement) (g : Measurement → Measurement)
    (hf : ∀ n m s t, Command.M n m s t ∈ p.seq → f m = .ok (g m)) :
    p.map f = .ok ⟨p.inputs, p.nodes.card, p.seq.map (Command.onMeas g), p.outputs⟩ := by
  have hrun := (checkRunnability_iff p).1 hr
  obtain ⟨q, h1, h2, h3, h4, -, -⟩ := rebuild_ok hp.inputs_nodup hrun hp.outputs_nodup hp.outputs
  have hnn : (p.inputs.length + (p.seq.filterMap Command.prepared?).length) = p.nodes.card := by
    have := hrun.introduced_nodup hp.inputs_nodup
    unfold introduced at this
    rw [Pattern.nodes, ← List.toFinset_append, List.toFinset_card_of_nodup this, List.length_append]
  have hpm : assertPermutation ((Pattern.empty p.inputs).extend p.seq).outputs p.outputs = .ok () := by
    unfold Pattern.reorderOutputNodes at h1
    cases h : assertPermutation ((Pattern.empty p.inputs).extend p.seq).outputs p.outputs with
    | ok u => rfl
    | error e => rw [h] at h1; cases h1
  obtain ⟨c1, c2, c3⟩ := C08_count p.inputs p.seq
  simp only [Pattern.map, Pattern.apply, mapMeas_ok hf, bind, Except.bind, pure, Except.pure, if_true, Pattern.new,
    onMeas_extend, Pattern.reorderOutputNodes, hpm, c2, c3, hnn]

/-- **C65** If `f` raises on a measurement of the pattern (and raises only exceptions of one kind), `apply` raises. -/
theorem C65_apply_raises (p : Pattern) (f : Measurement → Except PyErr Measurement) (e : PyErr)
    (hf : ∀ m e', f m = .error e' → e' = e) {n m s t} (h : Command.M n m s t ∈ p.seq) (hm : f m = .error e) (copy : Bool) :
    p.apply f copy = .error e := by
  simp only [Pattern.apply, mapMeas_error hf h hm, bind, Except.bind]

/-- **C65** The views of a pattern that do not look at measurements are not changed. -/
theorem C65_views (p q : Pattern) (g : Measurement → Measurement) (hi : q.inputs = p.inputs)
    (hs : q.seq = p.seq.map (Command.onMeas g)) (ho : q.outputs = p.outputs) :
    q.checkRunnability = p.checkRunnability ∧ (q.OutputsOk ↔ p.OutputsOk) ∧ q.nodes = p.nodes ∧
      q.maxSpace = p.maxSpace ∧ q.spaceList = p.spaceList ∧ ∀ strict, q.isStandard strict = p.isStandard strict := by
  have hkind : ∀ c, Pattern.kindOf (Command.onMeas g c) = Pattern.kindOf c := by intro c; cases c <;> rfl
  have hdrop : ∀ (P : Pattern.Kind → Bool) (l : List Command),
      (l.map (Command.onMeas g)).dropWhile (fun c => P (Pattern.kindOf c)) = (l.dropWhile (fun c => P (Pattern.kindOf c))).map (Command.onMeas g) := by
    intro P l
    induction l with
    | nil => rfl
    | cons c l ih =>
      rw [List.map_cons, List.dropWhile_cons, List.dropWhile_cons, hkind]
      split
      · exact ih
      · rfl
  have hms : ∀ (l : List Command) (a b : ℤ), Pattern.maxSpaceLoop (l.map (Command.onMeas g)) a b = Pattern.maxSpaceLoop l a b := by
    intro l
    induction l with
    | nil => intro a b; rfl
    | cons c l ih => intro a b; cases c <;> simp only [List.map_cons, Command.onMeas, Pattern.maxSpaceLoop, ih]
  have hsl : ∀ (l : List Command) (a : ℤ), Pattern.spaceListLoop (l.map (Command.onMeas g)) a = Pattern.spaceListLoop l a := by
    intro l
    induction l with
    | nil => intro a; rfl
    | cons c l ih => intro a; cases c <;> simp only [List.map_cons, Command.onMeas, Pattern.spaceListLoop, ih]
  refine ⟨?_, ?_, ?_, ?_, ?_, ?_⟩
  · simp only [Pattern.checkRunnability, hi, hs, onMeas_run]
  · have hl : ∀ n, Live q.inputs q.seq n ↔ Live p.inputs p.seq n := by
      intro n; unfold Live introduced measuredIn; rw [hi, hs, onMeas_prepared, onMeas_measured]
    exact ⟨fun h => ⟨hi ▸ h.1, ho ▸ h.2, fun n => by rw [← ho, h.3, hl]⟩,
      fun h => ⟨hi ▸ h.1, ho ▸ h.2, fun n => by rw [ho, h.3, hl]⟩⟩
  · simp only [Pattern.nodes, hi, hs, onMeas_prepared]
  · simp only [Pattern.maxSpace, hi, hs, hms]
  · simp only [Pattern.spaceList, hs, hsl]
  · intro strict
    have e1 := hdrop (fun k => decide (k = .N)) p.seq
    simp only [Pattern.isStandard, Pattern.isStandardSeq, hs, e1]
    have e2 := hdrop (fun k => decide (k = .E)) (p.seq.dropWhile (fun c => decide (Pattern.kindOf c = .N)))
    simp only [e2]
    generalize (p.seq.dropWhile (fun c => decide (Pattern.kindOf c = .N))).dropWhile (fun c => decide (Pattern.kindOf c = .E)) = l
    have e3 := hdrop (fun k => decide (k = .M)) l
    simp only [e3]
    generalize l.dropWhile (fun c => decide (Pattern.kindOf c = .M)) = l'
    have e4 := hdrop (fun k => decide (k = .X) || decide (k = .Z)) l'
    have e6 := hdrop (fun k => decide (k = .X) || decide (k = .Z) || decide (k = .C)) l'
    have e5 := hdrop (fun k => decide (k = .C)) (l'.dropWhile (fun c => decide (Pattern.kindOf c = .X) || decide (Pattern.kindOf c = .Z)))
    simp only [e4, e5, e6]
    cases strict <;> simp only [Bool.false_eq_true, if_true, if_false, List.isEmpty_map]

/-- **C65** Replacing measurements by measurements of the same observable does not change what the pattern computes,
in any branch. -/
theorem C65_same_meaning (p q : Pattern) (g : Measurement → Measurement) (hs : q.seq = p.seq.map (Command.onMeas g))
    (h : ∀ n m s t, Command.M n m s t ∈ p.seq → observable (g m) = observable m) (r : ℕ → Bool) :
    OpPhaseEq (semCmds r q.seq) (semCmds r p.seq) := by
  rw [hs]; exact onMeas_semCmds r p.seq h

/-! ### `blochify` -/

/-- **C65** `blochify` and `to_bloch` leave no Pauli measurement and compute the same thing, with the same inputs and
outputs. -/
theorem C65_blochify (p : Pattern) (copy : Bool) (hp : copy = true → p.OutputsOk ∧ p.checkRunnability = .ok ()) :
    ∃ q, p.blochify copy = .ok q ∧ q.inputs = p.inputs ∧ q.outputs = p.outputs ∧
      (∀ n m s t, Command.M n m s t ∈ q.seq → ∃ b, m = .bloch b) ∧
      List.Forall₂ (fun c c' => c' = c.onMeas (fun m => .bloch m.toBloch)) p.seq q.seq ∧
      ∀ r, OpPhaseEq (semCmds r q.seq) (semCmds r p.seq) := by
  have hq : ∃ q, p.blochify copy = .ok q ∧ q.inputs = p.inputs ∧ q.outputs = p.outputs ∧
      q.seq = p.seq.map (Command.onMeas (fun m => .bloch m.toBloch)) := by
    cases copy with
    | false => exact ⟨_, C65_apply_in_place p _ (fun m => .bloch m.toBloch) (fun _ _ _ _ _ => rfl), rfl, rfl, rfl⟩
    | true => exact ⟨_, C65_map p (hp rfl).1 (hp rfl).2 _ (fun m => .bloch m.toBloch) (fun _ _ _ _ _ => rfl), rfl, rfl, rfl⟩
  obtain ⟨q, h1, h2, h3, h4⟩ := hq
  refine ⟨q, h1, h2, h3, ?_, ?_, ?_⟩
  · intro n m s t hm
    rw [h4, List.mem_map] at hm
    obtain ⟨c, -, e⟩ := hm
    cases c <;> simp only [Command.onMeas, Command.M.injEq, reduceCtorEq] at e
    exact ⟨_, e.2.1.symm⟩
  · rw [h4, List.forall₂_map_right_iff, List.forall₂_same]; exact fun _ _ => rfl
  · exact fun r => C65_same_meaning p q _ h4 (fun n m s t _ => C06_to_bloch m) r

/-! ### `infer_pauli_measurements` -/

/-- What `infer_pauli_measurements(rel_tol, abs_tol)` may do to a measurement: a Pauli measurement is kept; a Bloch
measurement at angle `θ` (in units of π) becomes a Pauli measurement exactly when `2θ` is within the tolerance of an
integer `k`, the nearest one; the new observable is that of the angle `k/2` in the same plane. -/
def InferSpec (relTol absTol : ℝ) : Measurement → Measurement → Prop
  | .pauli m, m' => m' = .pauli m
  | .bloch m, .bloch m' => m' = m ∧ ∀ k : ℤ, max (relTol * max |2 * m.angle| |(k : ℝ)|) absTol < |2 * m.angle - k| ∨ 1 / 2 < |2 * m.angle - k| ∨ (|2 * m.angle - k| = 1 / 2 ∧ k % 2 = 1)
  | .bloch m, .pauli m' => ∃ k : ℤ, |2 * m.angle - k| ≤ max (relTol * max |2 * m.angle| |(k : ℝ)|) absTol ∧
      |2 * m.angle - k| ≤ 1 / 2 ∧ observable (.pauli m') = observable (.bloch ⟨k / 2, m.plane⟩)

theorem pyRound_unique {x : ℝ} {k : ℤ} (h : |x - k| < 1 / 2) : pyRound x = k := by
  have h1 := pyRound_spec x
  have h2 : |((pyRound x - k : ℤ) : ℝ)| < 1 := by
    push_cast
    have : (pyRound x : ℝ) - k = (x - k) - (x - pyRound x) := by ring
    rw [this]
    exact lt_of_le_of_lt (abs_sub _ _) (by linarith)
  rw [← Int.cast_abs] at h2
  have h3 : |pyRound x - k| < 1 := by exact_mod_cast h2
  have := Int.abs_lt_one_iff.1 h3
  omega

theorem pyRound_tie {x : ℝ} {k : ℤ} (h : |x - k| = 1 / 2) (hk : k % 2 = 0) : pyRound x = k := by
  rcases (abs_eq (by norm_num : (0:ℝ) ≤ 1/2)).1 h with h | h
  · have hx : x = k + 1 / 2 := by linarith
    have hf : ⌊x⌋ = k := by rw [Int.floor_eq_iff]; constructor <;> rw [hx] <;> linarith
    unfold pyRound
    simp only [hf]
    rw [if_neg (by rw [hx]; linarith), if_neg (by rw [hx]; linarith), if_pos hk]
  · have hx : x = k - 1 / 2 := by linarith
    have hf : ⌊x⌋ = k - 1 := by rw [Int.floor_eq_iff]; push_cast; constructor <;> rw [hx] <;> linarith
    unfold pyRound
    simp only [hf]
    rw [if_neg (by rw [hx]; push_cast; linarith), if_neg (by rw [hx]; push_cast; linarith), if_neg (by omega)]
    ring

/-- **C65** What `to_pauli_or_bloch` does to one measurement. -/
theorem C65_to_pauli_or_bloch {rel abs' : ℝ} (hr : 0 ≤ rel) (ha : 0 ≤ abs') (m : Measurement) :
    ∃ m', m.toPauliOrBlochTol rel abs' = .ok m' ∧ InferSpec rel abs' m m' := by
  cases m with
  | pauli m => exact ⟨_, rfl, rfl⟩
  | bloch m =>
    by_cases h : |2 * m.angle - pyRound (2 * m.angle)| ≤ max (rel * max |2 * m.angle| |(pyRound (2 * m.angle) : ℝ)|) abs'
    · refine ⟨.pauli (quarterPauli m.plane (pyRound (2 * m.angle))), ?_, pyRound (2 * m.angle), h, pyRound_spec _, observable_quarterPauli _ _⟩
      simp only [Measurement.toPauliOrBlochTol, toPauliOrNoneTol_eq m hr ha, if_pos h, bind, Except.bind, pure, Except.pure]
    · refine ⟨.bloch m, ?_, rfl, ?_⟩
      · simp only [Measurement.toPauliOrBlochTol, toPauliOrNoneTol_eq m hr ha, if_neg h, bind, Except.bind, pure, Except.pure]
      · intro k
        rcases lt_trichotomy |2 * m.angle - k| (1 / 2) with hk | hk | hk
        · rw [pyRound_unique hk] at h
          exact Or.inl (not_le.1 h)
        · rcases Int.emod_two_eq_zero_or_one k with h0 | h1
          · rw [pyRound_tie hk h0] at h
            exact Or.inl (not_le.1 h)
          · exact Or.inr (Or.inr ⟨hk, h1⟩)
        · exact Or.inr (Or.inl hk)

/-- **C65** `infer_pauli_measurements(rel_tol, abs_tol)` succeeds for all nonnegative tolerances; it keeps inputs,
outputs and every command but the measurements, which are replaced as `InferSpec` says; each observable moves by at
most `π/2` times the tolerance, entry by entry. -/
theorem C65_infer (p : Pattern) (copy : Bool) (hp : copy = true → p.OutputsOk ∧ p.checkRunnability = .ok ())
    {rel abs' : ℝ} (hr : 0 ≤ rel) (ha : 0 ≤ abs') :
    ∃ q g, p.inferPauliMeasurements rel abs' copy = .ok q ∧ q.inputs = p.inputs ∧ q.outputs = p.outputs ∧
      q.seq = p.seq.map (Command.onMeas g) ∧ (∀ m, InferSpec rel abs' m (g m)) ∧
      ∀ m i j, ‖observable (g m) i j - observable m i j‖ ≤
        Real.pi / 2 * max (rel * (2 * |m.toBloch.angle| + 1 / 2)) abs' := by
  choose g hg1 hg2 using C65_to_pauli_or_bloch (rel := rel) (abs' := abs') hr ha
  have hb : ∀ m i j, ‖observable (g m) i j - observable m i j‖ ≤
        Real.pi / 2 * max (rel * (2 * |m.toBloch.angle| + 1 / 2)) abs' := by
    intro m i j
    have hB : 0 ≤ Real.pi / 2 * max (rel * (2 * |m.toBloch.angle| + 1 / 2)) abs' :=
      mul_nonneg (by positivity) (le_max_of_le_right ha)
    have hs := hg2 m
    generalize g m = m' at hs
    cases m with
    | pauli m => simp only [InferSpec] at hs; subst hs; simpa using hB
    | bloch m =>
      cases m' with
      | bloch m' => obtain ⟨rfl, -⟩ := hs; simpa using hB
      | pauli m' =>
        obtain ⟨k, h1, h2, h3⟩ := hs
        rw [h3]
        refine (planeObservable_close m.plane (k / 2) m.angle i j).trans ?_
        have e : |(k : ℝ) / 2 - m.angle| = |2 * m.angle - k| / 2 := by
          rw [show (k : ℝ) / 2 - m.angle = -((2 * m.angle - k) / 2) by ring, abs_neg, abs_div]; simp
        rw [e]
        have hk : |(k : ℝ)| ≤ 2 * |m.angle| + 1 / 2 := by
          have : (k : ℝ) = 2 * m.angle - (2 * m.angle - k) := by ring
          calc |(k : ℝ)| = |2 * m.angle - (2 * m.angle - k)| := by rw [← this]
            _ ≤ |2 * m.angle| + |2 * m.angle - k| := abs_sub _ _
            _ ≤ 2 * |m.angle| + 1 / 2 := by rw [abs_mul]; simpa using h2
        have hm : max |2 * m.angle| |(k : ℝ)| ≤ 2 * |m.angle| + 1 / 2 := by
          refine max_le ?_ hk
          rw [abs_mul]; norm_num
        have h4 : |2 * m.angle - k| ≤ max (rel * (2 * |m.angle| + 1 / 2)) abs' :=
          h1.trans (max_le_max_right _ (mul_le_mul_of_nonneg_left hm hr))
        have := mul_le_mul_of_nonneg_left h4 (by positivity : 0 ≤ Real.pi / 2)
        simp only [Measurement.toBloch]
        linarith
  cases copy with
  | false => exact ⟨_, g, C65_apply_in_place p _ g (fun n m s t _ => hg1 m), rfl, rfl, rfl, hg2, hb⟩
  | true => exact ⟨_, g, C65_map p (hp rfl).1 (hp rfl).2 _ g (fun n m s t _ => hg1 m), rfl, rfl, rfl, hg2, hb⟩

/-- **C65** With tolerance zero, `infer_pauli_measurements` does not change what the pattern computes. -/
theorem C65_infer_exact (p q : Pattern) (copy : Bool) (hp : copy = true → p.OutputsOk ∧ p.checkRunnability = .ok ())
    (h : p.inferPauliMeasurements 0 0 copy = .ok q) (r : ℕ → Bool) : OpPhaseEq (semCmds r q.seq) (semCmds r p.seq) := by
  obtain ⟨q', g, h1, -, -, h2, h3, h4⟩ := C65_infer p copy hp (le_refl 0) (le_refl 0)
  obtain rfl : q' = q := by rw [h] at h1; exact (Except.ok.inj h1).symm
  refine C65_same_meaning p q' g h2 (fun n m s t _ => ?_) r
  funext i j
  have := h4 m i j
  simp only [zero_mul, max_self, mul_zero] at this
  exact sub_eq_zero.1 (norm_eq_zero.1 (le_antisymm this (norm_nonneg _)))

/-- **C65** An angle that is exactly a multiple of `π/2` is always recognised, whatever the tolerances. -/
theorem C65_infer_complete {rel abs' : ℝ} (hr : 0 ≤ rel) (ha : 0 ≤ abs') (m m' : Measurement) (pm : PauliMeasurement)
    (hm : observable m = observable (.pauli pm)) (h : InferSpec rel abs' m m') : m' = .pauli pm := by
  have inj : ∀ a b : PauliMeasurement, observable (.pauli a) = observable (.pauli b) → a = b := by
    intro a b hab
    have e := C06_round_trip b
    have e0 := C06_round_trip a
    have f1 : observable (.bloch a.toBloch) = observable (.bloch b.toBloch) := by
      have h1 := C06_to_bloch (.pauli a); have h2 := C06_to_bloch (.pauli b)
      simp only [Measurement.toBloch] at h1 h2
      rw [h1, h2, hab]
    obtain ⟨xa, sa⟩ := a
    obtain ⟨xb, sb⟩ := b
    have e1 := congrFun (congrFun hab false) false
    have e2 := congrFun (congrFun hab false) true
    have e3 := congrFun (congrFun hab true) false
    have hI : (Complex.I : ℂ) ≠ 0 := Complex.I_ne_zero
    cases xa <;> cases xb <;> cases sa <;> cases sb <;>
      simp [observable, Ops.fromAxis, Ops.X, Ops.Y, Ops.Z, Sign.toComplex, Sign.toInt, Complex.ext_iff] at e1 e2 e3 ⊢ <;>
      first | (exfalso; linarith) | skip
    all_goals (exfalso; revert e1 e2 e3; norm_num)
  cases m with
  | pauli m => simp only [InferSpec] at h; rw [h, inj _ _ hm]
  | bloch m =>
    have hint : ∃ k : ℤ, 2 * m.angle = k := by
      by_contra hno
      push Not at hno
      have : m.toPauliOrNone = none := by
        unfold BlochMeasurement.toPauliOrNone
        simp only
        rw [if_pos (hno _)]
      exact (C06_to_pauli_none_iff m).1 this pm hm.symm
    obtain ⟨k, hk⟩ := hint
    cases m' with
    | bloch m' =>
      obtain ⟨-, h2⟩ := h
      have hz : |2 * m.angle - (k : ℝ)| = 0 := by rw [hk]; simp
      rcases h2 k with h | h | ⟨h, -⟩
      · rw [hz] at h
        exact absurd h (not_lt.2 (le_max_of_le_right ha))
      · rw [hz] at h; norm_num at h
      · rw [hz] at h; norm_num at h
    | pauli m' =>
      obtain ⟨k', -, h2, h3⟩ := h
      have hkk : k' = k := by
        rw [hk, ← Int.cast_sub, ← Int.cast_abs] at h2
        have h5 : ((|k - k'| : ℤ) : ℝ) < 1 := by linarith
        have h6 : |k - k'| < 1 := by exact_mod_cast h5
        have := Int.abs_lt_one_iff.1 h6
        omega
      subst hkk
      rw [inj m' pm]
      rw [h3, ← hm, ← hk]
      congr 3; ring

/-- **C65** With the default `abs_tol = 0`, an angle near zero (but not zero) is never recognised, however small. -/
theorem C65_infer_near_zero {rel : ℝ} (h0 : 0 ≤ rel) (h1 : rel < 1) (b : BlochMeasurement) (m' : Measurement)
    (hb : b.angle ≠ 0) (hs : |b.angle| < 1 / 4) (h : InferSpec rel 0 (.bloch b) m') : m' = .bloch b := by
  cases m' with
  | bloch m' => rw [h.1]
  | pauli m' =>
    exfalso
    obtain ⟨k, h2, h3, -⟩ := h
    have hk : k = 0 := by
      have : |(k : ℝ)| < 1 := by
        have e : (k : ℝ) = 2 * b.angle - (2 * b.angle - k) := by ring
        calc |(k : ℝ)| = |2 * b.angle - (2 * b.angle - k)| := by rw [← e]
          _ ≤ |2 * b.angle| + |2 * b.angle - k| := abs_sub _ _
          _ < 1 := by rw [abs_mul]; norm_num; linarith
      rw [← Int.cast_abs] at this
      have h6 : |k| < 1 := by exact_mod_cast this
      exact Int.abs_lt_one_iff.1 h6
    subst hk
    have hpos : 0 < |2 * b.angle| := abs_pos.2 (mul_ne_zero two_ne_zero hb)
    simp only [Int.cast_zero, sub_zero, abs_zero, max_eq_left hpos.le] at h2
    rw [max_eq_left (mul_nonneg h0 hpos.le)] at h2
    nlinarith

/-- **C65** Inferring twice is inferring once; inferring the Pauli measurements of a blochified pattern recovers
them. -/
theorem C65_infer_idempotent {rel abs' : ℝ} (hr : 0 ≤ rel) (ha : 0 ≤ abs') (m m' : Measurement) (pm : PauliMeasurement)
    (h : m.toPauliOrBlochTol rel abs' = .ok m') :
    m'.toPauliOrBlochTol rel abs' = .ok m' ∧
      Measurement.toPauliOrBlochTol rel abs' (.bloch pm.toBloch) = .ok (.pauli pm) := by
  constructor
  · cases m with
    | pauli m => simp only [Measurement.toPauliOrBlochTol, Except.ok.injEq] at h; subst h; rfl
    | bloch m =>
      have h' := h
      simp only [Measurement.toPauliOrBlochTol, toPauliOrNoneTol_eq m hr ha, bind, Except.bind, pure, Except.pure] at h
      split_ifs at h
      · simp only [Except.ok.injEq] at h; subst h; rfl
      · simp only [Except.ok.injEq] at h; subst h; exact h'
  · obtain ⟨m'', h1, h2⟩ := C65_to_pauli_or_bloch (rel := rel) (abs' := abs') hr ha (.bloch pm.toBloch)
    rw [h1, C65_infer_complete hr ha _ m'' pm (C06_to_bloch (.pauli pm)) h2]

/-- **C65** A negative tolerance is refused as soon as a Bloch measurement is met. -/
theorem C65_infer_negative (p : Pattern) (copy : Bool) {rel abs' : ℝ} (h : rel < 0 ∨ abs' < 0)
    {n b s t} (hb : Command.M n (.bloch b) s t ∈ p.seq) : p.inferPauliMeasurements rel abs' copy = .error .valueError := by
  refine C65_apply_raises p _ .valueError ?_ hb ?_ copy
  · intro m e hm
    cases m with
    | pauli m => cases hm
    | bloch m =>
      simp only [Measurement.toPauliOrBlochTol, toPauliOrNoneTol_neg m h, bind, Except.bind] at hm
      exact (Except.error.inj hm).symm
  · simp only [Measurement.toPauliOrBlochTol, toPauliOrNoneTol_neg b h, bind, Except.bind]

/-! ### `map` and other transformations -/

/-- **C65** Signal shifting commutes with replacing measurements by measurements in the same planes (for instance,
with giving values to angles): same signals, and the same commands with the measurements replaced. -/
theorem C65_shift_signals (p : Pattern) (g : Measurement → Measurement)
    (hg : ∀ n m s t, Command.M n m s t ∈ p.seq → (g m).toBloch.plane = m.toBloch.plane) :
    Pattern.shiftSignalsDirect { p with seq := p.seq.map (Command.onMeas g) } =
      ({ p with seq := p.shiftSignalsDirect.1.seq.map (Command.onMeas g) }, p.shiftSignalsDirect.2) := by
  have h : ∀ (l : List Command) (sig : SignalDict),
      (∀ n m s t, Command.M n m s t ∈ l → (g m).toBloch.plane = m.toBloch.plane) →
      Pattern.shiftLoop sig (l.map (Command.onMeas g)) =
        ((Pattern.shiftLoop sig l).1, (Pattern.shiftLoop sig l).2.map (Command.onMeas g)) := by
    intro l
    induction l with
    | nil => intro sig _; rfl
    | cons c l ih =>
      intro sig hl
      have hstep : Pattern.shiftStep sig (c.onMeas g) = ((Pattern.shiftStep sig c).1, (Pattern.shiftStep sig c).2.onMeas g) := by
        cases c with
        | M n m s t =>
          have hp := hl n m s t (by simp)
          simp only [Command.onMeas, Pattern.shiftStep, hp]
          cases m.toBloch.plane <;> simp only <;> split_ifs <;> rfl
        | _ => rfl
      simp only [List.map_cons, Pattern.shiftLoop, hstep]
      rw [ih _ (fun n m s t hm => hl n m s t (by simp [hm]))]
  simp only [Pattern.shiftSignalsDirect, h p.seq [] hg]

/-- **C65** Renaming the nodes commutes with replacing measurements. -/
theorem C65_reindex (p : Pattern) (g : Measurement → Measurement) (f : ℕ → ℕ) :
    Pattern.reindexFunc { p with seq := p.seq.map (Command.onMeas g) } f =
      (p.reindexFunc f).map (fun q => { q with seq := q.seq.map (Command.onMeas g) }) := by
  have e : (p.seq.map (Command.onMeas g)).map (Command.reindex f) = (p.seq.map (Command.reindex f)).map (Command.onMeas g) := by
    rw [List.map_map, List.map_map]
    refine List.map_congr_left fun c _ => ?_
    cases c <;> rfl
  simp only [Pattern.reindexFunc, e, onMeas_extend, Pattern.reorderOutputNodes, bind, Except.bind]
  cases assertPermutation ((Pattern.empty (p.inputs.map f)).extend (p.seq.map (Command.reindex f))).outputs (p.outputs.map f) with
  | error e => rfl
  | ok u =>
    simp only [Except.map, pure, Except.pure]
    rw [(C08_count _ _).1]

/-! ### Instances -/

/-- The pattern of the examples: input 0, a Pauli and a Bloch measurement. -/
noncomputable def exMapPattern : Pattern := (Pattern.empty [0]).extend exampleSeq

theorem exMapPattern_ok : exMapPattern.OutputsOk ∧ exMapPattern.checkRunnability = .ok () := by
  obtain ⟨c1, c2, -⟩ := C08_count [0] exampleSeq
  have ho := C08_outputs [0] (by simp) exampleSeq exampleSeq_runnable
  have hnd := exampleSeq_runnable.introduced_nodup (by simp)
  refine ⟨⟨by unfold exMapPattern; rw [c2]; simp, by unfold exMapPattern; rw [ho]; exact hnd.filter _, fun n => ?_⟩, ?_⟩
  · unfold exMapPattern
    rw [ho, c1, c2, List.mem_filter]
    simp [Live]
  · rw [checkRunnability_iff]; unfold exMapPattern; rw [c1, c2]; exact exampleSeq_runnable

example : ∃ q, exMapPattern.map (fun m => .ok (.bloch ⟨m.toBloch.angle + 1, m.toBloch.plane⟩)) = .ok q ∧ q.outputs = exMapPattern.outputs :=
  ⟨_, C65_map _ exMapPattern_ok.1 exMapPattern_ok.2 _ (fun m => .bloch ⟨m.toBloch.angle + 1, m.toBloch.plane⟩) (fun _ _ _ _ _ => rfl), rfl⟩

/-- An angle within the tolerance: the direction 0.2500001·2 = 0.5000002 is recognised with `abs_tol = 1e-3`. -/
example : ∃ m', Measurement.toPauliOrBlochTol 0 (1 / 1000) (.bloch ⟨1 / 2 + 1 / 10000, .XY⟩) = .ok (.pauli m') := by
  have h : |2 * ((1 : ℝ) / 2 + 1 / 10000) - ((1 : ℤ) : ℝ)| < 1 / 2 := by rw [abs_lt]; constructor <;> norm_num
  have hr : pyRound (2 * ((1 : ℝ) / 2 + 1 / 10000)) = 1 := pyRound_unique h
  simp only [Measurement.toPauliOrBlochTol, toPauliOrNoneTol_eq _ (le_refl (0 : ℝ)) (by norm_num : (0 : ℝ) ≤ 1 / 1000), hr, bind, Except.bind, pure, Except.pure]
  rw [if_pos]
  · exact ⟨_, rfl⟩
  · refine le_max_of_le_right ?_
    rw [abs_le]; constructor <;> norm_num

example : exMapPattern.inferPauliMeasurements (-1) 0 false = .error .valueError := by
  refine C65_infer_negative _ _ (Or.inl (by norm_num)) (n := 1) (b := ⟨1 / 4, .XY⟩) (s := {0}) (t := ∅) ?_
  unfold exMapPattern
  rw [(C08_count _ _).1]
  simp [exampleSeq]

end Graphix
