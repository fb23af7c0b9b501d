import Verif.Model.PatternMap
import Verif.Props.Compose
import Verif.Props.Simplify
import Verif.Props.Parameter
import Verif.Props.Measurement
import Mathlib.Analysis.SpecialFunctions.Trigonometric.Bounds

/-! # Lemmas about measurement-wise transformations of patterns -/

namespace Graphix

/-- The command with `g` applied to its measurement, if it is one. -/
def Command.onMeas (g : Measurement → Measurement) : Command → Command
  | .M n m s t => .M n (g m) s t
  | c => c

/-! ### Rounding and closeness -/

theorem pyRound_spec (x : ℝ) : |x - pyRound x| ≤ 1 / 2 := by
  have h1 := Int.floor_le x
  have h2 := Int.lt_floor_add_one x
  unfold pyRound
  simp only
  split_ifs with a b c <;> rw [abs_le] <;> push_cast <;> constructor <;> linarith

theorem pyRound_int (k : ℤ) : pyRound (k : ℝ) = k := by
  unfold pyRound
  simp

/-- `math.isclose` accepts numbers that are close relatively to the largest, or absolutely. -/
theorem mathIsClose_iff {a b rel abs' : ℝ} (hr : 0 ≤ rel) (ha : 0 ≤ abs') :
    mathIsClose a b rel abs' = .ok (decide (|a - b| ≤ max (rel * max |a| |b|) abs')) := by
  unfold mathIsClose
  rw [if_neg (by push Not; exact ⟨hr, ha⟩)]
  by_cases h : a = b
  · rw [if_pos h]
    subst h
    have : |a - a| ≤ max (rel * max |a| |a|) abs' := by simp [ha]
    rw [decide_eq_true this]
  · rw [if_neg h]
    dsimp only
    congr 1
    rw [decide_eq_decide, abs_sub_comm b a, abs_mul, abs_mul, abs_of_nonneg hr]
    rw [mul_max_of_nonneg _ _ hr, le_max_iff, le_max_iff]
    tauto

theorem mathIsClose_neg {a b rel abs' : ℝ} (h : rel < 0 ∨ abs' < 0) : mathIsClose a b rel abs' = .error .valueError := by
  unfold mathIsClose; rw [if_pos h]

/-- The Pauli measurement along `k` quarter turns in a plane. -/
def quarterPauli (p : Plane) (k : ℤ) : PauliMeasurement :=
  ⟨if k % 4 % 2 = 0 then p.cos else p.sin, Sign.minusIf (decide (k % 4 ≥ 2))⟩

theorem observable_quarterPauli (p : Plane) (k : ℤ) :
    observable (.pauli (quarterPauli p k)) = observable (.bloch ⟨k / 2, p⟩) := by
  simp only [observable, planeObservable, quarterPauli]
  rcases cos_sin_quarter k with ⟨h, hc, hs⟩ | ⟨h, hc, hs⟩ | ⟨h, hc, hs⟩ | ⟨h, hc, hs⟩ <;>
    rw [hc, hs, h] <;> simp [Sign.minusIf, Sign.toComplex, Sign.toInt]

open scoped Classical in
theorem toPauliOrNoneTol_eq (m : BlochMeasurement) {rel abs' : ℝ} (hr : 0 ≤ rel) (ha : 0 ≤ abs') :
    m.toPauliOrNoneTol rel abs' =
      .ok (if |2 * m.angle - pyRound (2 * m.angle)| ≤ max (rel * max |2 * m.angle| |(pyRound (2 * m.angle) : ℝ)|) abs'
        then some (quarterPauli m.plane (pyRound (2 * m.angle))) else none) := by
  simp only [BlochMeasurement.toPauliOrNoneTol, mathIsClose_iff hr ha, bind, Except.bind, pure, Except.pure]
  by_cases h : |2 * m.angle - pyRound (2 * m.angle)| ≤ max (rel * max |2 * m.angle| |(pyRound (2 * m.angle) : ℝ)|) abs'
  · rw [if_pos h, decide_eq_true h, if_neg (by simp)]; rfl
  · rw [if_neg h, decide_eq_false h, if_pos rfl]

theorem toPauliOrNoneTol_neg (m : BlochMeasurement) {rel abs' : ℝ} (h : rel < 0 ∨ abs' < 0) :
    m.toPauliOrNoneTol rel abs' = .error .valueError := by
  simp only [BlochMeasurement.toPauliOrNoneTol, mathIsClose_neg h, bind, Except.bind]

/-- The observables of two directions of a plane differ, entry by entry, by at most the angle between them. -/
theorem planeObservable_close (p : Plane) (θ φ : ℝ) (i j : Bool) :
    ‖planeObservable p θ i j - planeObservable p φ i j‖ ≤ Real.pi * |θ - φ| := by
  have key : (Real.cos (θ * Real.pi) - Real.cos (φ * Real.pi)) ^ 2 + (Real.sin (θ * Real.pi) - Real.sin (φ * Real.pi)) ^ 2
      ≤ (Real.pi * |θ - φ|) ^ 2 := by
    have h := Real.one_sub_sq_div_two_le_cos (x := θ * Real.pi - φ * Real.pi)
    rw [Real.cos_sub] at h
    have c1 := Real.sin_sq_add_cos_sq (θ * Real.pi)
    have c2 := Real.sin_sq_add_cos_sq (φ * Real.pi)
    rw [mul_pow, sq_abs]
    nlinarith
  have hpos : 0 ≤ Real.pi * |θ - φ| := mul_nonneg Real.pi_pos.le (abs_nonneg _)
  simp only [planeObservable]
  generalize Real.cos (θ * Real.pi) = c at *
  generalize Real.cos (φ * Real.pi) = c' at *
  generalize Real.sin (θ * Real.pi) = s at *
  generalize Real.sin (φ * Real.pi) = s' at *
  generalize Real.pi * |θ - φ| = B at *
  have hc : |c - c'| ≤ B := abs_le_of_sq_le_sq (by nlinarith) hpos
  have hs : |s - s'| ≤ B := abs_le_of_sq_le_sq (by nlinarith) hpos
  have hc' : ‖(c : ℂ) - c'‖ ≤ B := by rw [← Complex.ofReal_sub, Complex.norm_real]; exact hc
  have hs' : ‖(s : ℂ) - s'‖ ≤ B := by rw [← Complex.ofReal_sub, Complex.norm_real]; exact hs
  have hsr : ‖(s' : ℂ) - s‖ ≤ B := by rw [norm_sub_rev]; exact hs'
  have hcr : ‖(c' : ℂ) - c‖ ≤ B := by rw [norm_sub_rev]; exact hc'
  have hmix : ∀ e : ℝ, e ^ 2 = 1 → ‖((c : ℂ) - c') + ((e * (s - s') : ℝ) : ℂ) * Complex.I‖ ≤ B := by
    intro e he
    rw [← Complex.ofReal_sub]
    rw [Complex.norm_add_mul_I]
    rw [Real.sqrt_le_left hpos]
    rw [mul_pow, he]; linarith
  cases p <;> cases i <;> cases j <;>
    simp [Plane.cos, Plane.sin, Ops.fromAxis, Ops.X, Ops.Y, Ops.Z, hpos]
  · have := hmix (-1) (by norm_num)
    refine le_of_eq_of_le ?_ this; congr 1; push_cast; ring
  · have := hmix 1 (by norm_num)
    refine le_of_eq_of_le ?_ this; congr 1; push_cast; ring
  · exact hc'
  · refine le_of_eq_of_le ?_ hs'
    rw [show -((s : ℂ) * Complex.I) + (s' : ℂ) * Complex.I = -(((s : ℂ) - s') * Complex.I) by ring, norm_neg, norm_mul, Complex.norm_I, mul_one]
  · refine le_of_eq_of_le ?_ hs'
    rw [← sub_mul, norm_mul, Complex.norm_I, mul_one]
  · refine le_of_eq_of_le ?_ hc'
    rw [← norm_neg]; congr 1; ring
  · exact hc'
  · exact hs'
  · exact hs'
  · refine le_of_eq_of_le ?_ hc'
    rw [← norm_neg]; congr 1; ring

/-! ### Same observable, same meaning -/

theorem projOut_of_observable {m m' : Measurement} (h : observable m' = observable m) (n : ℕ) (s : Bool) :
    OpPhaseEq (projOut n (measVec m' s)) (projOut n (measVec m s)) := by
  have ho : outer (measVec m' s) = outer (measVec m s) := by
    rw [outer_measVec, outer_measVec, measureOperator_eq, measureOperator_eq, h]
  obtain ⟨c, hc, e⟩ := bra_phase_of_outer (measVec_unit m' s) (measVec_unit m s) ho
  refine ⟨c, hc, fun ψ => ?_⟩
  rw [projOut_eq_op1, projOut_eq_op1, e, op1_mat_smul]

theorem Command.onMeas_sem {g : Measurement → Measurement} (r : ℕ → Bool) (c : Command)
    (h : ∀ n m s t, c = .M n m s t → observable (g m) = observable m) :
    OpPhaseEq ((c.onMeas g).sem r) (c.sem r) := by
  cases c with
  | M n m s t =>
    exact (projOut_of_observable (h n m s t rfl) n (r n)).comp_right
      (fun ψ => op1 (powB Ops.X (parity r s)) n (op1 (powB Ops.Z (parity r t)) n ψ))
  | _ => exact OpPhaseEq.refl _

theorem onMeas_semCmds {g : Measurement → Measurement} (r : ℕ → Bool) (l : List Command)
    (h : ∀ n m s t, .M n m s t ∈ l → observable (g m) = observable m) :
    OpPhaseEq (semCmds r (l.map (Command.onMeas g))) (semCmds r l) := by
  induction l with
  | nil => exact OpPhaseEq.refl _
  | cons c l ih =>
    have h1 := Command.onMeas_sem (g := g) r c (fun n m s t e => h n m s t (by simp [e]))
    have h2 := ih (fun n m s t e => h n m s t (by simp [e]))
    exact OpPhaseEq.comp (F := semCmds r (l.map (Command.onMeas g))) (F' := semCmds r l) (semCmds_homog r _) h2 h1

theorem onMeas_prepared (g : Measurement → Measurement) (l : List Command) :
    (l.map (Command.onMeas g)).filterMap Command.prepared? = l.filterMap Command.prepared? := by
  rw [List.filterMap_map]; congr 1; funext c; cases c <;> rfl

theorem onMeas_measured (g : Measurement → Measurement) (l : List Command) :
    (l.map (Command.onMeas g)).filterMap Command.measured? = l.filterMap Command.measured? := by
  rw [List.filterMap_map]; congr 1; funext c; cases c <;> rfl

theorem onMeas_run (g : Measurement → Measurement) (l : List Command) (st : RunState) :
    st.run (l.map (Command.onMeas g)) = st.run l := by
  induction l generalizing st with
  | nil => rfl
  | cons c l ih =>
    have : st.step (c.onMeas g) = st.step c := by cases c <;> rfl
    rw [List.map_cons, RunState.run, RunState.run, this]
    cases st.step c with
    | error e => rfl
    | ok st' => exact ih st'

theorem onMeas_extend (g : Measurement → Measurement) (inputs : List ℕ) (l : List Command) :
    (Pattern.empty inputs).extend (l.map (Command.onMeas g)) =
      { (Pattern.empty inputs).extend l with seq := l.map (Command.onMeas g) } := by
  induction l using List.reverseRecOn with
  | nil => rfl
  | append_singleton l c ih =>
    have hs := (C08_count inputs l).1
    simp only [Pattern.extend, List.map_append, List.map_cons, List.map_nil, List.foldl_append, List.foldl_cons, List.foldl_nil] at ih hs ⊢
    rw [ih]
    cases c <;> simp [Pattern.add, Command.onMeas]

/-- `apply` computes its new sequence measurement by measurement. -/
theorem mapMeas_ok {f : Measurement → Except PyErr Measurement} {g : Measurement → Measurement} {l : List Command}
    (h : ∀ n m s t, Command.M n m s t ∈ l → f m = .ok (g m)) :
    l.mapM (Command.mapMeas f) = .ok (l.map (Command.onMeas g)) := by
  induction l with
  | nil => rfl
  | cons c l ih =>
    have h2 := ih (fun n m s t e => h n m s t (by simp [e]))
    rw [List.mapM_cons, h2]
    cases c with
    | M n m s t =>
      simp only [Command.mapMeas, h n m s t (by simp), bind, Except.bind, pure, Except.pure, List.map_cons, Command.onMeas]
    | _ => rfl

theorem mapMeas_error {f : Measurement → Except PyErr Measurement} {l : List Command} {e : PyErr}
    (hf : ∀ m e', f m = .error e' → e' = e) {n m s t} (h : Command.M n m s t ∈ l) (hm : f m = .error e) :
    l.mapM (Command.mapMeas f) = .error e := by
  induction l with
  | nil => simp at h
  | cons c l ih =>
    rw [List.mapM_cons]
    rcases List.mem_cons.1 h with rfl | h
    · simp only [Command.mapMeas, hm, bind, Except.bind]
    · cases hc : Command.mapMeas f c with
      | error e' =>
        simp only [bind, Except.bind]
        cases c with
        | M n' m' s' t' =>
          simp only [Command.mapMeas, bind, Except.bind] at hc
          cases hm' : f m' with
          | error e'' => rw [hm'] at hc; cases hc; rw [hf _ _ hm']
          | ok v => rw [hm'] at hc; cases hc
        | _ => cases hc
      | ok c' => simp only [bind, Except.bind, ih h]

end Graphix
