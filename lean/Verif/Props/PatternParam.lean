import Verif.Props.PatternMap

/-!
# C65: parameters of patterns

`PPattern.at v` is the specification: the pattern without parameters obtained when every parameter `x` has the value
`v x`.
-/

namespace Graphix

/-- The measurement when the parameters have the values `v`. -/
noncomputable def PMeasurement.at (v : ℕ → ℝ) : PMeasurement → Measurement
  | bloch angle plane => .bloch ⟨angle.val v, plane⟩
  | pauli m => .pauli m

/-- The command when the parameters have the values `v`. -/
noncomputable def PCommand.at (v : ℕ → ℝ) : PCommand → Command
  | M n m s t => .M n (m.at v) s t
  | N n st => .N n st
  | E a b => .E a b
  | C n c => .C n c
  | X n d => .X n d
  | Z n d => .Z n d
  | S n d => .S n d
  | T => .T

/-- The pattern when the parameters have the values `v`. -/
noncomputable def PPattern.at (p : PPattern) (v : ℕ → ℝ) : Pattern :=
  ⟨p.inputs, p.nNode, p.seq.map (PCommand.at v), p.outputs⟩

/-- The command with `g` applied to its measurement, if it is one. -/
def PCommand.onMeas (g : PMeasurement → PMeasurement) : PCommand → PCommand
  | .M n m s t => .M n (g m) s t
  | c => c

theorem pmapMeas_ok {f : PMeasurement → Except PyErr PMeasurement} {g : PMeasurement → PMeasurement} {l : List PCommand}
    (h : ∀ m, f m = .ok (g m)) : l.mapM (PCommand.mapMeas f) = .ok (l.map (PCommand.onMeas g)) := by
  induction l with
  | nil => rfl
  | cons c l ih =>
    rw [List.mapM_cons, ih]
    cases c with
    | M n m s t =>
      simp only [PCommand.mapMeas, h m, bind, Except.bind, pure, Except.pure, List.map_cons, PCommand.onMeas]
    | _ => rfl

theorem PPattern.foldl_at (v : ℕ → ℝ) (inputs : List ℕ) (l : List PCommand) :
    (l.foldl PPattern.add (PPattern.empty inputs)).at v = (Pattern.empty inputs).extend (l.map (PCommand.at v)) ∧
      (l.foldl PPattern.add (PPattern.empty inputs)).seq = l := by
  induction l using List.reverseRecOn with
  | nil => exact ⟨rfl, rfl⟩
  | append_singleton l c ih =>
    obtain ⟨h1, h2⟩ := ih
    have hs : (Pattern.empty inputs).extend ((l ++ [c]).map (PCommand.at v)) =
        ((Pattern.empty inputs).extend (l.map (PCommand.at v))).add (c.at v) := by
      simp [Pattern.extend]
    rw [hs, ← h1, List.foldl_append]
    simp only [List.foldl_cons, List.foldl_nil]
    generalize l.foldl PPattern.add (PPattern.empty inputs) = w at h2
    constructor
    · cases c <;> simp [PPattern.add, PPattern.at, Pattern.add, PCommand.at]
    · cases c <;> simp [PPattern.add, h2]

/-- `apply` on a pattern with parameters: it succeeds, and keeps everything but the measurements. -/
theorem papply_ok (p : PPattern) (copy : Bool)
    (hp : copy = true → ∀ v, (p.at v).OutputsOk ∧ (p.at v).checkRunnability = .ok ())
    {f : PMeasurement → Except PyErr PMeasurement} {g : PMeasurement → PMeasurement} (h : ∀ m, f m = .ok (g m)) :
    ∃ q, p.apply f copy = .ok q ∧ q.inputs = p.inputs ∧ q.outputs = p.outputs ∧ q.seq = p.seq.map (PCommand.onMeas g) := by
  cases copy with
  | false =>
    exact ⟨{ p with seq := p.seq.map (PCommand.onMeas g) }, by simp only [PPattern.apply, pmapMeas_ok h, bind, Except.bind, pure, Except.pure, Bool.false_eq_true, if_false], rfl, rfl, rfl⟩
  | true =>
    obtain ⟨ho, hr⟩ := hp rfl (fun _ => 0)
    obtain ⟨q, h1, -⟩ := rebuild_ok ho.inputs_nodup ((checkRunnability_iff _).1 hr) ho.outputs_nodup ho.outputs
    set l := p.seq.map (PCommand.onMeas g) with hl
    have hout : (l.foldl PPattern.add (PPattern.empty p.inputs)).outputs =
        ((Pattern.empty p.inputs).extend (p.seq.map (PCommand.at (fun _ => 0)))).outputs := by
      have e := (PPattern.foldl_at (fun _ => 0) p.inputs l).1
      have e2 : l.map (PCommand.at fun _ => 0) = (p.seq.map (PCommand.at (fun _ => 0))) ∨ True := Or.inr trivial
      have h3 := congrArg Pattern.outputs e
      have h4 : (l.foldl PPattern.add (PPattern.empty p.inputs)).outputs = (p.seq.foldl PPattern.add (PPattern.empty p.inputs)).outputs := by
        rw [hl]
        generalize PPattern.empty p.inputs = w
        have : ∀ (s : List PCommand) (w w' : PPattern), w.outputs = w'.outputs →
            ((s.map (PCommand.onMeas g)).foldl PPattern.add w).outputs = (s.foldl PPattern.add w').outputs := by
          intro s
          induction s with
          | nil => intro w w' e; exact e
          | cons c s ih =>
            intro w w' e
            rw [List.map_cons, List.foldl_cons, List.foldl_cons]
            apply ih
            cases c <;> simp [PPattern.add, PCommand.onMeas, e]
        exact this p.seq w w rfl
      rw [h4]
      exact congrArg Pattern.outputs (PPattern.foldl_at (fun _ => 0) p.inputs p.seq).1
    have hpm : assertPermutation (l.foldl PPattern.add (PPattern.empty p.inputs)).outputs p.outputs = .ok () := by
      rw [hout]
      simp only [PPattern.at] at h1
      unfold Pattern.reorderOutputNodes at h1
      cases h : assertPermutation ((Pattern.empty p.inputs).extend (p.seq.map (PCommand.at (fun _ => 0)))).outputs p.outputs with
      | ok u => rfl
      | error e => rw [h] at h1; cases h1
    refine ⟨{ l.foldl PPattern.add (PPattern.empty p.inputs) with outputs := p.outputs }, ?_, ?_, rfl, ?_⟩
    · simp only [PPattern.apply, pmapMeas_ok h, bind, Except.bind, pure, Except.pure, if_true, PPattern.reorderOutputNodes, ← hl, hpm]
    · have e := congrArg Pattern.inputs (PPattern.foldl_at (fun _ => 0) p.inputs l).1
      rw [(C08_count _ _).2.1] at e
      exact e
    · exact (PPattern.foldl_at (fun _ => 0) p.inputs l).2

theorem evaluate_ok (a b : ℝ) (e : Expr) : ∃ g, Expr.evaluate a b e = .ok g := by
  cases e with
  | num r => exact ⟨_, rfl⟩
  | aff a' x b' =>
    simp only [Expr.evaluate, Expr.mul, bind, Except.bind, Expr.scale]
    split_ifs
    · exact ⟨_, rfl⟩
    · exact ⟨_, rfl⟩

theorem subs_ok (e f : Expr) (x : ℕ) : ∃ g, e.subs x f = .ok g := by
  cases e with
  | num r => exact ⟨_, rfl⟩
  | aff a y b =>
    simp only [Expr.subs]
    split_ifs
    · exact evaluate_ok a b f
    · exact ⟨_, rfl⟩

theorem xreplace_ok (e : Expr) (s : ℕ → Option Expr) : ∃ g, e.xreplace s = .ok g := by
  cases e with
  | num r => exact ⟨_, rfl⟩
  | aff a y b =>
    simp only [Expr.xreplace]
    cases s y with
    | none => exact ⟨_, rfl⟩
    | some f => exact evaluate_ok a b f

/-- **C65** `replace_parameter(x, e)` never fails on a runnable pattern, keeps inputs and outputs, and gives the
pattern where `x` has the value of `e`: for all values `v` of the parameters, the commands are those of the original
pattern with `x` set to the value of `e`. -/
theorem C65_replace_parameter (p : PPattern) (x : ℕ) (e : Expr) (copy : Bool)
    (hp : copy = true → ∀ v, (p.at v).OutputsOk ∧ (p.at v).checkRunnability = .ok ()) :
    ∃ q, p.replaceParameter x e copy = .ok q ∧ q.inputs = p.inputs ∧ q.outputs = p.outputs ∧
      ∀ v, (q.at v).seq = (p.at (Function.update v x (e.val v))).seq := by
  have hf : ∀ m : PMeasurement, ∃ m', PMeasurement.withParameter x e m = .ok m' ∧
      ∀ v, m'.at v = m.at (Function.update v x (e.val v)) := by
    intro m
    cases m with
    | pauli m => exact ⟨_, rfl, fun _ => rfl⟩
    | bloch a pl =>
      obtain ⟨g, hg⟩ := subs_ok a e x
      refine ⟨.bloch g pl, by simp only [PMeasurement.withParameter, hg, bind, Except.bind, pure, Except.pure], fun v => ?_⟩
      simp only [PMeasurement.at, Expr.C44_subs v a e g x hg]
  choose g hg1 hg2 using hf
  obtain ⟨q, h1, h2, h3, h4⟩ := papply_ok p copy hp hg1
  refine ⟨q, h1, h2, h3, fun v => ?_⟩
  simp only [PPattern.at, h4, List.map_map]
  refine List.map_congr_left fun c _ => ?_
  cases c with
  | M n m s t => simp only [Function.comp, PCommand.onMeas, PCommand.at, hg2]
  | _ => rfl

/-- **C65** `replace_parameters(assignment)` replaces all the parameters of the assignment simultaneously. -/
theorem C65_replace_parameters (p : PPattern) (assignment : ℕ → Option Expr) (copy : Bool)
    (hp : copy = true → ∀ v, (p.at v).OutputsOk ∧ (p.at v).checkRunnability = .ok ()) :
    ∃ q, p.replaceParameters assignment copy = .ok q ∧ q.inputs = p.inputs ∧ q.outputs = p.outputs ∧
      ∀ v, (q.at v).seq = (p.at (fun x => match assignment x with | some e => e.val v | none => v x)).seq := by
  have hf : ∀ m : PMeasurement, ∃ m', PMeasurement.withParameters assignment m = .ok m' ∧
      ∀ v, m'.at v = m.at (fun x => match assignment x with | some e => e.val v | none => v x) := by
    intro m
    cases m with
    | pauli m => exact ⟨_, rfl, fun _ => rfl⟩
    | bloch a pl =>
      obtain ⟨g, hg⟩ := xreplace_ok a assignment
      refine ⟨.bloch g pl, by simp only [PMeasurement.withParameters, hg, bind, Except.bind, pure, Except.pure], fun v => ?_⟩
      have := Expr.C44_xreplace v a g assignment hg
      simp only [PMeasurement.at, this]
      rfl
  choose g hg1 hg2 using hf
  obtain ⟨q, h1, h2, h3, h4⟩ := papply_ok p copy hp hg1
  refine ⟨q, h1, h2, h3, fun v => ?_⟩
  simp only [PPattern.at, h4, List.map_map]
  refine List.map_congr_left fun c _ => ?_
  cases c with
  | M n m s t => simp only [Function.comp, PCommand.onMeas, PCommand.at, hg2]
  | _ => rfl

/-- The parameters that occur in a command. -/
def PCommand.params : PCommand → Set ℕ
  | .M _ (.bloch (.aff _ x _) _) _ _ => {x}
  | _ => ∅

/-- **C65** `is_parameterized()` is `False` exactly when no parameter occurs; then the values of the parameters are
immaterial. -/
theorem C65_is_parameterized (p : PPattern) :
    (p.isParameterized = false ↔ ∀ c ∈ p.seq, c.params = ∅) ∧
      (p.isParameterized = false → ∀ v w, p.at v = p.at w) := by
  have h1 : p.isParameterized = false ↔ ∀ c ∈ p.seq, c.params = ∅ := by
    simp only [PPattern.isParameterized, List.any_eq_false]
    refine forall_congr' fun c => forall_congr' fun _ => ?_
    unfold PCommand.params
    split <;> simp
  refine ⟨h1, fun h v w => ?_⟩
  rw [h1] at h
  simp only [PPattern.at, Pattern.mk.injEq, true_and, and_true]
  refine List.map_congr_left fun c hc => ?_
  have hc' := h c hc
  cases c with
  | M n m s t =>
    cases m with
    | pauli m => rfl
    | bloch a pl =>
      cases a with
      | num r => rfl
      | aff a x b => simp [PCommand.params] at hc'
  | _ => rfl

/-- **C65** When numbers are given to all the parameters that occur, no parameter is left. -/
theorem C65_all_parameters_replaced (p q : PPattern) (assignment : ℕ → Option Expr) (copy : Bool)
    (ha : ∀ c ∈ p.seq, ∀ x ∈ c.params, ∃ r, assignment x = some (.num r))
    (hp : copy = true → ∀ v, (p.at v).OutputsOk ∧ (p.at v).checkRunnability = .ok ())
    (h : p.replaceParameters assignment copy = .ok q) : q.isParameterized = false := by
  have hf : ∀ m : PMeasurement, ∃ m', PMeasurement.withParameters assignment m = .ok m' := by
    intro m
    cases m with
    | pauli m => exact ⟨_, rfl⟩
    | bloch a pl =>
      obtain ⟨g, hg⟩ := xreplace_ok a assignment
      exact ⟨.bloch g pl, by simp only [PMeasurement.withParameters, hg, bind, Except.bind, pure, Except.pure]⟩
  choose g hg1 using hf
  obtain ⟨q', h1, -, -, h4⟩ := papply_ok p copy hp hg1
  obtain rfl : q' = q := by
    unfold PPattern.replaceParameters at h
    rw [h] at h1; exact (Except.ok.inj h1).symm
  rw [(C65_is_parameterized q').1]
  intro c' hc'
  rw [h4, List.mem_map] at hc'
  obtain ⟨c, hc, rfl⟩ := hc'
  have hcp := ha c hc
  cases c with
  | M n m s t =>
    cases m with
    | pauli m =>
      have e : g (.pauli m) = .pauli m := by have := hg1 (.pauli m); exact (Except.ok.inj this).symm
      simp only [PCommand.onMeas, e, PCommand.params]
    | bloch a pl =>
      have e := hg1 (.bloch a pl)
      cases a with
      | num r =>
        have e : g (.bloch (.num r) pl) = .bloch (.num r) pl := (Except.ok.inj e).symm
        simp only [PCommand.onMeas, e, PCommand.params]
      | aff a x b =>
        obtain ⟨r, hr⟩ := hcp x (by simp [PCommand.params])
        have e : g (.bloch (.aff a x b) pl) = .bloch (.num (a * r + b)) pl := by
          simp only [PMeasurement.withParameters, Expr.xreplace, hr, Expr.evaluate, Expr.mul, Expr.add, bind, Except.bind, pure, Except.pure, Except.ok.injEq] at e
          exact e.symm
        simp only [PCommand.onMeas, e, PCommand.params]
  | _ => rfl

/-- **C65** Transforming a measurement by a Clifford commutes with giving values to the parameters: the two
measurements have the same observable (an angle that is an expression is not reduced modulo 2π, so the angles
themselves may differ). -/
theorem C65_clifford_parameters (m : PMeasurement) (c : Clifford) :
    ∃ m', m.clifford? c = .ok m' ∧ ∀ v, observable (m'.at v) = observable ((m.at v).clifford c) ∧
      (m'.at v).toBloch.plane = ((m.at v).clifford c).toBloch.plane := by
  cases m with
  | pauli m =>
    refine ⟨.pauli (m.clifford c), ?_, fun v => ⟨rfl, rfl⟩⟩
    simp only [PMeasurement.clifford?, PauliMeasurement.clifford?_eq]
  | bloch a pl =>
    obtain ⟨q, hq, -⟩ := Plane.clifford?_eq c pl
    change pl.clifford? c = some q at hq
    -- both angles
    have hc : ∀ v, Measurement.clifford (.bloch ⟨a.val v, pl⟩) c = .bloch (BlochMeasurement.clifford ⟨a.val v, pl⟩ c) := fun _ => rfl
    have e : ∀ v, BlochMeasurement.clifford? ⟨a.val v, pl⟩ c = some (BlochMeasurement.clifford ⟨a.val v, pl⟩ c) :=
      fun v => BlochMeasurement.clifford?_eq _ c
    simp only [BlochMeasurement.clifford?, hq, PauliMeasurement.clifford?_plus,
      Option.bind_eq_bind, Option.bind_some, Option.pure_def, Option.some.injEq] at e
    have hobs : ∀ (θ : ℝ), observable (.bloch ⟨θ - 2, q⟩) = observable (.bloch ⟨θ, q⟩) := by
      intro θ
      simp only [observable, planeObservable]
      rw [show (θ - 2) * Real.pi = θ * Real.pi - 2 * Real.pi by ring, Real.cos_sub_two_pi, Real.sin_sub_two_pi]
    have key : ∀ (x : Expr) (t : ℝ), ∃ g : Expr, Expr.add x (.num t) = .ok g ∧ ∀ v, g.val v = x.val v + t := by
      intro x t
      cases x with
      | num r => exact ⟨_, rfl, fun _ => rfl⟩
      | aff a' y b => exact ⟨_, rfl, fun v => by simp only [Expr.val]; ring⟩
    have ksub : ∀ (x : Expr), ∃ g : Expr, Expr.sub (.num 2) x = .ok g ∧ ∀ v, g.val v = 2 - x.val v := by
      intro x
      cases x with
      | num r => exact ⟨_, rfl, fun _ => rfl⟩
      | aff a' y b => exact ⟨_, rfl, fun v => by simp only [Expr.val]; ring⟩
    simp only [PMeasurement.clifford?, hq, PauliMeasurement.clifford?_plus, Option.elim, bind, Except.bind]
    set ex : Bool := decide ((measureEntry c pl.cos).1 ≠ q.cos) with hex
    set sc := (measureEntry c pl.cos).2
    set ss := (measureEntry c pl.sin).2
    set t : ℝ := (if ex = true then 1 / 2 + (if sc = Sign.minus then (0 : ℝ) + 1 else 0) else if sc = Sign.minus then (0 : ℝ) + 1 else 0) with ht
    have hstep : ∃ b : Expr, (if ex = decide (sc = ss) then Expr.sub (.num 2) a else .ok a) = .ok b ∧
        ∀ v, b.val v = if ex = decide (sc = ss) then 2 - a.val v else a.val v := by
      by_cases hx : ex = decide (sc = ss)
      · obtain ⟨g, h1, h2⟩ := ksub a
        exact ⟨g, by rw [if_pos hx]; exact h1, fun v => by rw [if_pos hx]; exact h2 v⟩
      · exact ⟨a, by rw [if_neg hx], fun v => by rw [if_neg hx]⟩
    obtain ⟨b, hb1, hb2⟩ := hstep
    obtain ⟨d, hd1, hd2⟩ := key b t
    refine ⟨.bloch (match d with
      | .num r => if r ≥ 2 then .num (r - 2) else .num r
      | e => e) q, ?_, fun v => ?_⟩
    · by_cases hx : ex = decide (sc = ss)
      · rw [if_pos hx] at hb1
        simp only [if_pos hx, hb1, hd1, pure, Except.pure]
        cases d <;> rfl
      · rw [if_neg hx] at hb1
        obtain rfl := Except.ok.inj hb1
        simp only [if_neg hx, hd1, pure, Except.pure]
        cases d <;> rfl
    have hcl := (e v).symm
    have hm : (PMeasurement.bloch a pl).at v = .bloch ⟨a.val v, pl⟩ := rfl
    rw [hm, hc v, hcl]
    simp only [← hb2 v, ← hd2 v]
    constructor
    · have l1 : ∀ D : ℝ, observable (.bloch ⟨if D ≥ 2 then D - 2 else D, q⟩) = observable (.bloch ⟨D, q⟩) := by
        intro D; split_ifs
        · exact hobs D
        · rfl
      rw [l1]
      cases d with
      | num r =>
        simp only [PMeasurement.at]
        split_ifs
        · exact hobs r
        · rfl
      | aff a' y b' => rfl
    · cases d with
      | num r => simp only [PMeasurement.at]; split_ifs <;> rfl
      | aff a' y b' => rfl

/-- **C65** Inferring Pauli measurements before giving values to the parameters does not change the meaning when the
tolerance is zero: every measurement keeps its observable, for all values. -/
theorem C65_infer_parameters (m : PMeasurement) :
    ∃ m', m.toPauliOrBlochTol 0 0 = .ok m' ∧ ∀ v, observable (m'.at v) = observable (m.at v) := by
  cases m with
  | pauli m => exact ⟨_, rfl, fun _ => rfl⟩
  | bloch a pl =>
    cases a with
    | aff a x b => exact ⟨_, rfl, fun _ => rfl⟩
    | num r =>
      simp only [PMeasurement.toPauliOrBlochTol, toPauliOrNoneTol_eq ⟨r, pl⟩ (le_refl 0) (le_refl 0), bind, Except.bind, pure, Except.pure]
      split_ifs with h
      · refine ⟨_, rfl, fun v => ?_⟩
        have hz : 2 * r = pyRound (2 * r) := by
          have : |2 * r - (pyRound (2 * r) : ℝ)| ≤ 0 := by simpa using h
          exact sub_eq_zero.1 (abs_eq_zero.1 (le_antisymm this (abs_nonneg _)))
        simp only [PMeasurement.at]
        rw [observable_quarterPauli, ← hz]
        simp only [Expr.val]
        congr 3; ring
      · exact ⟨_, rfl, fun _ => rfl⟩

/-- A pattern with two parameters and a Pauli measurement. -/
noncomputable def exParam : PPattern :=
  ⟨[0], 3, [.N 1 .plus, .E 0 1, .N 2 .plus, .E 1 2, .M 0 (.bloch (.aff 1 0 0) .XY) ∅ ∅,
    .M 1 (.bloch (.aff 2 1 (1/2)) .XY) {0} ∅, .X 2 {1}, .Z 2 {0}], [2]⟩

theorem exParam_ok (v : ℕ → ℝ) : (exParam.at v).OutputsOk ∧ (exParam.at v).checkRunnability = .ok () := by
  refine ⟨⟨by simp [exParam, PPattern.at], by simp [exParam, PPattern.at], fun n => ?_⟩, by rfl⟩
  simp only [exParam, PPattern.at, Live, introduced, measuredIn, List.map_cons, List.map_nil, PCommand.at,
    List.filterMap_cons, List.filterMap_nil, Command.prepared?, Command.measured?, List.cons_append, List.nil_append]
  simp only [List.mem_cons, List.not_mem_nil, or_false]
  omega

example : exParam.isParameterized = true ∧
    ∃ q, exParam.replaceParameter 0 (.num (1/4)) true = .ok q ∧ q.isParameterized = true ∧
    ∃ q', exParam.replaceParameters (fun x => if x = 0 then some (.num (1/4)) else some (.num 1)) true = .ok q' ∧
      q'.isParameterized = false := by
  refine ⟨rfl, ?_⟩
  obtain ⟨q, h, -, -, hv⟩ := C65_replace_parameter exParam 0 (.num (1/4)) true (fun _ => exParam_ok)
  refine ⟨q, h, ?_, ?_⟩
  · by_contra hq
    have := (C65_is_parameterized q).2 (by simpa using hq) (fun _ => 0) (fun _ => 1)
    have e0 := hv (fun _ => 0)
    have e1 := hv (fun _ => 1)
    rw [this, e1] at e0
    simp only [exParam, PPattern.at, List.map_cons, PCommand.at, PMeasurement.at, Expr.val, List.cons.injEq,
      Command.M.injEq, Measurement.bloch.injEq, BlochMeasurement.mk.injEq] at e0
    simp at e0
  · obtain ⟨q', h', -, -, -⟩ := C65_replace_parameters exParam
      (fun x => if x = 0 then some (.num (1/4)) else some (.num 1)) true (fun _ => exParam_ok)
    refine ⟨q', h', C65_all_parameters_replaced exParam q' _ true ?_ (fun _ => exParam_ok) h'⟩
    intro c _ x _
    by_cases hx : x = 0
    · exact ⟨_, if_pos hx⟩
    · exact ⟨_, if_neg hx⟩

end Graphix
