import Verif.Proofs.ParamCircuit
import Verif.Props.Swaps

/-!
# C67: circuits with parameters

The specification is `PCircuit.at v`: the circuit without parameters obtained when every parameter `x` has the value
`v x` (and `PPattern.at v` for patterns).
-/

namespace Graphix

theorem mapAngle_ok {f : Expr → Except PyErr Expr} {g : Expr → Expr} (h : ∀ e, f e = .ok (g e)) (l : List PInstr) :
    ∃ l', l.mapM (PInstr.mapAngle f) = .ok l' ∧
      ∀ v w, (∀ e, (g e).val v = e.val w) → l'.map (PInstr.at v) = l.map (PInstr.at w) := by
  induction l with
  | nil => exact ⟨[], rfl, fun _ _ _ => rfl⟩
  | cons i l ih =>
    obtain ⟨l', h1, h2⟩ := ih
    have hi : ∃ i', PInstr.mapAngle f i = .ok i' ∧ ∀ v w, (∀ e, (g e).val v = e.val w) → i'.at v = i.at w := by
      cases i with
      | RZZ c t θ => exact ⟨.RZZ c t (g θ), by simp only [PInstr.mapAngle, h, bind, Except.bind, pure, Except.pure], fun v w hv => by simp only [PInstr.at, hv]⟩
      | RX t θ => exact ⟨.RX t (g θ), by simp only [PInstr.mapAngle, h, bind, Except.bind, pure, Except.pure], fun v w hv => by simp only [PInstr.at, hv]⟩
      | RY t θ => exact ⟨.RY t (g θ), by simp only [PInstr.mapAngle, h, bind, Except.bind, pure, Except.pure], fun v w hv => by simp only [PInstr.at, hv]⟩
      | RZ t θ => exact ⟨.RZ t (g θ), by simp only [PInstr.mapAngle, h, bind, Except.bind, pure, Except.pure], fun v w hv => by simp only [PInstr.at, hv]⟩
      | J t θ => exact ⟨.J t (g θ), by simp only [PInstr.mapAngle, h, bind, Except.bind, pure, Except.pure], fun v w hv => by simp only [PInstr.at, hv]⟩
      | _ => exact ⟨_, rfl, fun _ _ _ => rfl⟩
    obtain ⟨i', g1, g2⟩ := hi
    refine ⟨i' :: l', ?_, fun v w hv => ?_⟩
    · rw [List.mapM_cons, g1, h1]; rfl
    · rw [List.map_cons, List.map_cons, g2 v w hv, h2 v w hv]

theorem applyAngle_ok {f : Expr → Except PyErr Expr} {g : Expr → Expr} (h : ∀ e, f e = .ok (g e)) (c : PCircuit) (copy : Bool) :
    ∃ c', c.applyAngle f copy = .ok c' ∧ c'.width = c.width ∧ c'.active = (if copy then Finset.range c.width else c.active) ∧
      ∀ v w, (∀ e, (g e).val v = e.val w) → (c'.at v).instrs = (c.at w).instrs := by
  obtain ⟨l', h1, h2⟩ := mapAngle_ok h c.instrs
  cases copy with
  | true =>
    exact ⟨⟨c.width, l', Finset.range c.width⟩, by simp only [PCircuit.applyAngle, h1, bind, Except.bind, pure, Except.pure, if_true]; rfl,
      rfl, by rw [if_pos rfl], h2⟩
  | false =>
    exact ⟨{ c with instrs := l' }, by simp only [PCircuit.applyAngle, h1, bind, Except.bind, pure, Except.pure]; rfl,
      rfl, by rw [if_neg (by simp)], h2⟩

/-- The values of the parameters after `replace_parameters(assignment)`. -/
noncomputable def assigned (assignment : ℕ → Option Expr) (v : ℕ → ℝ) : ℕ → ℝ :=
  fun x => match assignment x with | some e => e.val v | none => v x

/-- **C67** `Circuit.replace_parameter(x, e)` never fails, keeps the width and the gates in their order, and gives the
circuit where `x` has the value of `e`; in place, the circuit still refuses gates on the qubits that were measured. -/
theorem C67_replace_parameter (c : PCircuit) (x : ℕ) (e : Expr) (copy : Bool) :
    ∃ c', c.replaceParameter x e copy = .ok c' ∧ c'.width = c.width ∧ (copy = false → c'.active = c.active) ∧
      ∀ v, (c'.at v).instrs = (c.at (Function.update v x (e.val v))).instrs := by
  choose g hg using fun a => subs_ok a e x
  obtain ⟨c', h1, h2, h3, h4⟩ := applyAngle_ok hg c copy
  refine ⟨c', h1, h2, fun h => by rw [h3, h]; rfl, fun v => h4 v _ fun a => ?_⟩
  exact Expr.C44_subs v a e (g a) x (hg a)

/-- **C67** `Circuit.replace_parameters(assignment)` replaces all the parameters of the assignment simultaneously. -/
theorem C67_replace_parameters (c : PCircuit) (assignment : ℕ → Option Expr) (copy : Bool) :
    ∃ c', c.replaceParameters assignment copy = .ok c' ∧ c'.width = c.width ∧ (copy = false → c'.active = c.active) ∧
      ∀ v, (c'.at v).instrs = (c.at (assigned assignment v)).instrs := by
  choose g hg using fun a => xreplace_ok a assignment
  obtain ⟨c', h1, h2, h3, h4⟩ := applyAngle_ok hg c copy
  refine ⟨c', h1, h2, fun h => by rw [h3, h]; rfl, fun v => h4 v _ fun a => ?_⟩
  exact Expr.C44_xreplace v a (g a) assignment (hg a)

/-- A circuit with parameters that is built through the API. -/
def PCircuit.Built (c : PCircuit) : Prop := ∃ w l, (PCircuit.new w).extend l = .ok c

theorem PCircuit.Built.at {c : PCircuit} (h : c.Built) (v : ℕ → ℝ) : (c.at v).Built := by
  obtain ⟨w, l, hl⟩ := h
  obtain ⟨b, h1, h2⟩ := (PCircuit.extend_at v l (PCircuit.new w)).ok_left hl
  exact ⟨w, l.map (PInstr.at v), by rw [← h2]; exact h1⟩

/-- **C67** On a circuit without measurements, the copy made by `replace_parameters(…, copy=True)` is the circuit itself
with the values given: same gates, same active qubits. -/
theorem C67_replace_copy_partial (c : PCircuit) (hc : c.Built) (hm : ∀ t a, PInstr.M t a ∉ c.instrs)
    (assignment : ℕ → Option Expr) :
    ∃ c', c.replaceParameters assignment true = .ok c' ∧ ∀ v, c'.at v = c.at (assigned assignment v) := by
  choose g hg using fun a => xreplace_ok a assignment
  obtain ⟨c', h1, h2, h3, h4⟩ := applyAngle_ok hg c true
  refine ⟨c', h1, fun v => ?_⟩
  have hact : ∀ (l : List PInstr) (c0 c1 : PCircuit), c0.extend l = .ok c1 → (∀ t a, PInstr.M t a ∉ c1.instrs) →
      c1.active = c0.active ∧ c1.width = c0.width ∧ ∃ l', c1.instrs = c0.instrs ++ l' := by
    intro l
    induction l with
    | nil => intro c0 c1 h _; cases h; exact ⟨rfl, rfl, [], by simp⟩
    | cons i l ih =>
      intro c0 c1 h hn
      obtain ⟨d, hd, hd2⟩ := (bind_ok_iff _ _ _).1 h
      obtain ⟨e1, e2, l', e3⟩ := ih d c1 hd2 hn
      have hdi : d.instrs = c0.instrs ++ [i] ∧ d.width = c0.width ∧ ((∀ t a, i ≠ .M t a) → d.active = c0.active) := by
        simp only [PCircuit.add] at hd
        split_ifs at hd
        cases i <;> simp only [Except.ok.injEq] at hd <;> subst hd <;> simp
      refine ⟨?_, by rw [e2, hdi.2.1], i :: l', by rw [e3, hdi.1, List.append_assoc]; rfl⟩
      rw [e1]
      apply hdi.2.2
      rintro t a rfl
      exact hn t a (by rw [e3, hdi.1]; simp)
  obtain ⟨w, l, hl⟩ := hc
  obtain ⟨e1, e2, -⟩ := hact l _ _ hl hm
  have : c.active = Finset.range c.width := by rw [e1, e2]; rfl
  have h5 := h4 v (assigned assignment v) fun a => Expr.C44_xreplace v a (g a) assignment (hg a)
  have ext : ∀ a b : Circuit, a.width = b.width → a.instrs = b.instrs → a.active = b.active → a = b := by
    rintro ⟨⟩ ⟨⟩ h h' h''; simp_all
  refine ext _ _ h2 h5 ?_
  change c'.active = c.active
  rw [h3, this, if_pos rfl]

/-- **C67 fails with measurements**: the copy made by `replace_parameters(…, copy=True)` accepts a gate on a qubit that
was measured, which the circuit itself refuses. -/
theorem C67_copy_forgets_measured :
    ∃ c : PCircuit, c.Built ∧ c.add (.H 0) = .error .assertionError ∧
      ∀ assignment, ∃ c', c.replaceParameters assignment true = .ok c' ∧ ∃ d, c'.add (.H 0) = .ok d := by
  refine ⟨⟨1, [.RX 0 (Expr.placeholder 0), .M 0 .Z], ∅⟩, ⟨1, [.RX 0 (Expr.placeholder 0), .M 0 .Z], ?_⟩, ?_, fun a => ?_⟩
  · simp [PCircuit.extend, PCircuit.new, PCircuit.add, PCircuit.instrOk, bind, Except.bind]
  · simp [PCircuit.add, PCircuit.instrOk]
  · choose g hg using fun e => xreplace_ok e a
    obtain ⟨c', h1, h2, h3, -⟩ := applyAngle_ok hg ⟨1, [.RX 0 (Expr.placeholder 0), .M 0 .Z], ∅⟩ true
    refine ⟨c', h1, { c' with instrs := c'.instrs ++ [.H 0] }, ?_⟩
    rw [if_pos rfl] at h3
    simp [PCircuit.add, PCircuit.instrOk, h3]

/-- The parameters that occur in an instruction. -/
def PInstr.params : PInstr → Set ℕ
  | .RZZ _ _ (.aff _ x _) | .RX _ (.aff _ x _) | .RY _ (.aff _ x _) | .RZ _ (.aff _ x _) | .J _ (.aff _ x _) => {x}
  | _ => ∅

/-- **C67** `is_parameterized()` is `True` only if a parameter occurs; on circuits without `j` gates, exactly then, and
when it is `False` the values of the parameters are immaterial. -/
theorem C67_is_parameterized_partial (c : PCircuit) :
    (c.isParameterized = true → ∃ i ∈ c.instrs, i.params ≠ ∅) ∧
    ((∀ t θ, PInstr.J t θ ∉ c.instrs) → (c.isParameterized = false ↔ ∀ i ∈ c.instrs, i.params = ∅) ∧
      (c.isParameterized = false → ∀ v w, c.at v = c.at w)) := by
  have key : ∀ i : PInstr, (∀ t θ, i ≠ .J t θ) → ((match i with
      | .RZZ _ _ (.aff _ _ _) | .RX _ (.aff _ _ _) | .RY _ (.aff _ _ _) | .RZ _ (.aff _ _ _) => true
      | _ => false) = true ↔ i.params ≠ ∅) := by
    intro i hi
    rcases i with _ | ⟨_, _, _ | _⟩ | _ | _ | _ | _ | _ | _ | _ | _ | _ | _ | ⟨_, _ | _⟩ | ⟨_, _ | _⟩ | ⟨_, _ | _⟩ | ⟨t, θ⟩ <;>
      first | exact absurd rfl (hi t θ) | simp [PInstr.params]
  constructor
  · intro h
    obtain ⟨i, hi, h⟩ := List.any_eq_true.1 h
    refine ⟨i, hi, (key i ?_).1 h⟩
    rintro t θ rfl
    simp at h
  · intro hJ
    have h1 : c.isParameterized = false ↔ ∀ i ∈ c.instrs, i.params = ∅ := by
      simp only [PCircuit.isParameterized, List.any_eq_false]
      refine forall_congr' fun i => forall_congr' fun hi => ?_
      exact (not_congr (key i (by rintro t θ rfl; exact hJ t θ hi))).trans not_not
    refine ⟨h1, fun h v w => ?_⟩
    rw [h1] at h
    simp only [PCircuit.at, Circuit.mk.injEq, true_and, and_true]
    refine List.map_congr_left fun i hi => ?_
    have hp := h i hi
    rcases i with _ | ⟨_, _, _ | _⟩ | _ | _ | _ | _ | _ | _ | _ | _ | _ | _ | ⟨_, _ | _⟩ | ⟨_, _ | _⟩ | ⟨_, _ | _⟩ | ⟨_, _ | _⟩ <;>
      first | rfl | simp [PInstr.params] at hp

/-- **C67 fails for `j` gates**: a circuit made of one gate `j(0, x)` has a parameter, its meaning depends on the value of
the parameter, and `is_parameterized()` is `False`. -/
theorem C67_is_parameterized_j :
    ∃ c : PCircuit, c.Built ∧ c.isParameterized = false ∧ c.at (fun _ => 0) ≠ c.at (fun _ => 1) := by
  refine ⟨⟨1, [.J 0 (Expr.placeholder 0)], {0}⟩, ⟨1, [.J 0 (Expr.placeholder 0)], ?_⟩, rfl, ?_⟩
  · simp [PCircuit.extend, PCircuit.new, PCircuit.add, PCircuit.instrOk, bind, Except.bind]
  · simp [PCircuit.at, PInstr.at, Expr.placeholder, Expr.val]

/-- **C67** When numbers are given to all the parameters that occur, no parameter is left. -/
theorem C67_all_parameters_replaced (c c' : PCircuit) (assignment : ℕ → Option Expr) (copy : Bool)
    (ha : ∀ i ∈ c.instrs, ∀ x ∈ i.params, ∃ r, assignment x = some (.num r))
    (h : c.replaceParameters assignment copy = .ok c') : ∀ i ∈ c'.instrs, i.params = ∅ := by
  have key : ∀ (l l' : List PInstr), (∀ i ∈ l, ∀ x ∈ i.params, ∃ r, assignment x = some (.num r)) →
      l.mapM (PInstr.mapAngle fun θ => θ.xreplace assignment) = .ok l' → ∀ i ∈ l', i.params = ∅ := by
    intro l
    induction l with
    | nil => intro l' _ h; cases h; simp
    | cons i l ih =>
      intro l' hl h
      rw [List.mapM_cons] at h
      obtain ⟨i', h1, h2⟩ := (bind_ok_iff _ _ _).1 h
      obtain ⟨l'', h3, h4⟩ := (bind_ok_iff _ _ _).1 h2
      cases h4
      have hi : i'.params = ∅ := by
        have hx := hl i (by simp)
        rcases i with _ | ⟨_, _, _ | _⟩ | _ | _ | _ | _ | _ | _ | _ | _ | _ | _ | ⟨_, _ | _⟩ | ⟨_, _ | _⟩ | ⟨_, _ | _⟩ | ⟨_, _ | _⟩ <;>
          first
          | (cases h1; rfl)
          | (obtain ⟨r, hr⟩ := hx _ rfl
             simp only [PInstr.mapAngle, Expr.xreplace, hr, Expr.evaluate, Expr.mul, Expr.add, bind, Except.bind, pure, Except.pure,
               Except.ok.injEq] at h1
             subst h1; rfl)
      intro j hj
      rcases List.mem_cons.1 hj with rfl | hj
      · exact hi
      · exact ih l'' (fun i hi => hl i (List.mem_cons_of_mem _ hi)) h3 j hj
  obtain ⟨l', h1, h2⟩ := (bind_ok_iff _ _ _).1 h
  have hl := key c.instrs l' ha h1
  cases copy <;> (cases h2; exact hl)

/-- **C67** Transpiling a circuit with parameters and then giving values to the parameters is the same as giving the
values first: `transpile` succeeds on the circuit with parameters exactly when it succeeds on the circuit with values
(otherwise the exceptions are the same), and the two patterns have the same inputs, outputs, classical outputs and
commands (up to the description of the measurements, which have the same observables: an angle that is an expression
is not reduced modulo 2π). -/
theorem C67_transpile_parameters (c : PCircuit) (ord : SetOrd) (eord : List (ℕ × ℕ) → List (ℕ × ℕ))
    (nbr : Finset (Sym2 ℕ) → ℕ → List ℕ) (v : ℕ → ℝ) :
    (∀ t, c.transpile ord eord nbr = .ok t → ∃ t', (c.at v).transpile ord eord nbr = .ok t' ∧
      t.classicalOutputs = t'.classicalOutputs ∧ (t.pattern.at v).inputs = t'.pattern.inputs ∧
      (t.pattern.at v).outputs = t'.pattern.outputs ∧ List.Forall₂ SameCommand (t.pattern.at v).seq t'.pattern.seq) ∧
    (∀ e, c.transpile ord eord nbr = .error e → (c.at v).transpile ord eord nbr = .error e) := by
  have h := PCircuit.transpile_at v c ord eord nbr
  refine ⟨fun t ht => ?_, fun e he => h.error_left he⟩
  obtain ⟨t', h1, h2⟩ := h.ok_left ht
  refine ⟨t', h1, h2.classical.symm, h2.pattern.inputs.symm, h2.pattern.outputs.symm, ?_⟩
  exact List.forall₂_map_left_iff.2 h2.pattern.seq

/-- **C67** The same, for `transpile(transpile_swaps=False)`. -/
theorem C67_transpile_parameters_keep_swaps (c : PCircuit) (ord : SetOrd) (eord : List (ℕ × ℕ) → List (ℕ × ℕ))
    (nbr : Finset (Sym2 ℕ) → ℕ → List ℕ) (v : ℕ → ℝ) :
    (∀ t, c.transpileKeepSwaps ord eord nbr = .ok t → ∃ t', (c.at v).transpileKeepSwaps ord eord nbr = .ok t' ∧
      t.classicalOutputs = t'.classicalOutputs ∧ (t.pattern.at v).inputs = t'.pattern.inputs ∧
      (t.pattern.at v).outputs = t'.pattern.outputs ∧ List.Forall₂ SameCommand (t.pattern.at v).seq t'.pattern.seq) ∧
    (∀ e, c.transpileKeepSwaps ord eord nbr = .error e → (c.at v).transpileKeepSwaps ord eord nbr = .error e) := by
  have h := PCircuit.keepSwaps_at v c ord eord nbr
  refine ⟨fun t ht => ?_, fun e he => h.error_left he⟩
  obtain ⟨t', h1, h2⟩ := h.ok_left ht
  refine ⟨t', h1, h2.classical.symm, h2.pattern.inputs.symm, h2.pattern.outputs.symm, ?_⟩
  exact List.forall₂_map_left_iff.2 h2.pattern.seq

theorem sameCommands_lists {l l' : List Command} (h : List.Forall₂ SameCommand l l') :
    l.filterMap Command.prepared? = l'.filterMap Command.prepared? ∧ measuredIn l = measuredIn l' := by
  induction h with
  | nil => exact ⟨rfl, rfl⟩
  | @cons c c' l l' h1 _ ih =>
    have : Command.prepared? c = Command.prepared? c' ∧ Command.measured? c = Command.measured? c' := by
      cases c with
      | M n m s t =>
        cases c' with
        | M n' m' s' t' => obtain ⟨rfl, -⟩ := h1; exact ⟨rfl, rfl⟩
        | _ => simp [SameCommand] at h1
      | _ => cases c' <;> simp [SameCommand] at h1 <;> simp_all
    simp only [measuredIn, List.filterMap_cons, this] at ih ⊢
    constructor
    · rw [ih.1]
    · rw [ih.2]

theorem sameCommands_ok {p q : Pattern} (hi : p.inputs = q.inputs) (ho : p.outputs = q.outputs)
    (hs : List.Forall₂ SameCommand p.seq q.seq) : (p.OutputsOk ↔ q.OutputsOk) := by
  obtain ⟨h1, h2⟩ := sameCommands_lists hs
  have hlive : ∀ n, Live p.inputs p.seq n ↔ Live q.inputs q.seq n := by
    intro n
    simp only [Live, introduced, h1, h2, hi]
  constructor
  · rintro ⟨a, b, c⟩
    exact ⟨hi ▸ a, ho ▸ b, fun n => by rw [← ho, ← hlive]; exact c n⟩
  · rintro ⟨a, b, c⟩
    exact ⟨hi ▸ a, ho ▸ b, fun n => by rw [ho, hlive]; exact c n⟩

theorem SameCommand.cases {a b : Command} (h : SameCommand a b) :
    a = b ∨ ∃ n s t m m', a = .M n m s t ∧ b = .M n m' s t ∧ observable m = observable m' := by
  cases a with
  | M n m s t =>
    cases b with
    | M n' m' s' t' => obtain ⟨rfl, rfl, rfl, h⟩ := h; exact .inr ⟨_, _, _, _, _, rfl, rfl, h⟩
    | _ => simp [SameCommand] at h
  | _ => exact .inl (by cases b <;> first | exact h | simp [SameCommand] at h)

theorem SameCommand.symm {a b : Command} (h : SameCommand a b) : SameCommand b a := by
  obtain rfl | ⟨n, s, t, m, m', rfl, rfl, ho⟩ := h.cases
  · exact SameCommand.refl _
  · exact ⟨rfl, rfl, rfl, ho.symm⟩

theorem SameCommand.trans {a b d : Command} (h : SameCommand a b) (h' : SameCommand b d) : SameCommand a d := by
  obtain rfl | ⟨n, s, t, m, m', rfl, rfl, ho⟩ := h.cases
  · exact h'
  · obtain rfl | ⟨n1, s1, t1, m1, m1', e1, rfl, h1⟩ := h'.cases
    · exact ⟨rfl, rfl, rfl, ho⟩
    · injection e1 with a1 a2 a3 a4
      subst a1 a2 a3 a4
      exact ⟨rfl, rfl, rfl, ho.trans h1⟩

theorem sameCommands_trans {l1 l2 : List Command} (h : List.Forall₂ SameCommand l1 l2) :
    ∀ {l3}, List.Forall₂ SameCommand l2 l3 → List.Forall₂ SameCommand l1 l3 := by
  induction h with
  | nil => intro l3 h; cases h; exact .nil
  | cons a _ ih => intro l3 h; cases h with | cons b h => exact .cons (a.trans b) (ih h)

/-- **C67** The pattern obtained from a circuit with parameters implements it for all values of the parameters: when
`transpile()` succeeds on a circuit built through the API, without `I`, whose `rzz` gates act on distinct qubits, then for
all values the pattern is runnable, its inputs are the qubits, its outputs carry the active qubits in increasing order,
and in every branch it does what the circuit with these values does. -/
theorem C67_pattern_implements_circuit (c : PCircuit) (hc : c.Built) (v : ℕ → ℝ)
    (hp : ∀ i ∈ (c.at v).instrs, i.Proper ∧ ¬ i.isId) (ord : SetOrd) (hord : ord.Valid)
    (eord : List (ℕ × ℕ) → List (ℕ × ℕ)) (he : EdgeOrd.Valid eord) (nbr : Finset (Sym2 ℕ) → ℕ → List ℕ) (hnbr : NbrOrd.Valid nbr)
    (t : PTranspiledPattern) (ht : c.transpile ord eord nbr = .ok t) :
    (t.pattern.at v).OutputsOk ∧ (t.pattern.at v).checkRunnability = .ok () ∧ (t.pattern.at v).inputs = List.range c.width ∧
      ∃ σ : ℕ → ℕ, (∀ q < c.width, ∀ q' < c.width, σ q = σ q' → q = q') ∧
        (t.pattern.at v).outputs = (c.active.sort (· ≤ ·)).map σ ∧
        t.classicalOutputs = ((Finset.range c.width \ c.active).sort (· ≤ ·)).map σ ∧
        ∃ k : ℕ, ∀ r, OpPhaseEqOn (OnNodes (List.range c.width)) (semCmds r (t.pattern.at v).seq) fun ψ =>
          ((1 / (Real.sqrt 2 : ℂ)) ^ k • fun b =>
            semInstrs (fun k => r (((measuredQubits (c.at v).instrs).map σ).getD k 0)) 0 (c.at v).instrs ψ (b ∘ σ)) := by
  obtain ⟨t', h1, h2⟩ := (PCircuit.transpile_at v c ord eord nbr).ok_left ht
  obtain ⟨sw, -, g2, g3⟩ := transpile_default_full (c.at v) (hc.at v) hp ord hord eord he nbr hnbr
  have hact : sw.circuit.active = (c.at v).active := by
    by_contra hne
    rw [g2 hne] at h1; cases h1
  obtain ⟨res, k1, ⟨kO, -, -⟩, k2, k3, σ, k4, k5, k6, k, -, k7⟩ := g3 hact
  rw [k1] at h1
  obtain rfl := Except.ok.inj h1
  have hseq : List.Forall₂ SameCommand (t.pattern.at v).seq res.pattern.seq := List.forall₂_map_left_iff.2 h2.pattern.seq
  refine ⟨(sameCommands_ok h2.pattern.inputs.symm h2.pattern.outputs.symm hseq).2 kO, ?_, ?_, σ, k4, ?_, ?_, k, fun r => ?_⟩
  · rw [← C65_runnability_parameters, ← h2.pattern.runnability]; exact k2
  · exact h2.pattern.inputs.symm.trans k3
  · exact h2.pattern.outputs.symm.trans k5
  · exact h2.classical.symm.trans k6
  · obtain ⟨z, hz, hz'⟩ := k7 r
    obtain ⟨y, hy, hy'⟩ := sameCommands_sem r hseq
    refine ⟨y * z, by rw [norm_mul, hy, hz, one_mul], fun ψ hψ => ?_⟩
    rw [hy' ψ, hz' ψ hψ, smul_smul]

/-- **C67** Substituting in the pattern or in the circuit gives the same thing: if `transpile()` succeeds on a circuit
with parameters (as above), then `replace_parameters` on the pattern succeeds, `replace_parameters` on the circuit
succeeds and its result is transpiled, and for all values of the remaining parameters the two patterns have the same
inputs, outputs and commands (up to the description of the measurements). -/
theorem C67_substitute_then_transpile (c : PCircuit) (hc : c.Built)
    (hp : ∀ v, ∀ i ∈ (c.at v).instrs, i.Proper ∧ ¬ i.isId) (ord : SetOrd) (hord : ord.Valid)
    (eord : List (ℕ × ℕ) → List (ℕ × ℕ)) (he : EdgeOrd.Valid eord) (nbr : Finset (Sym2 ℕ) → ℕ → List ℕ) (hnbr : NbrOrd.Valid nbr)
    (t : PTranspiledPattern) (ht : c.transpile ord eord nbr = .ok t) (assignment : ℕ → Option Expr) (copy copy' : Bool) :
    ∃ p c' t', t.pattern.replaceParameters assignment copy = .ok p ∧ c.replaceParameters assignment copy' = .ok c' ∧
      c'.transpile ord eord nbr = .ok t' ∧ t'.classicalOutputs = t.classicalOutputs ∧
      p.inputs = t'.pattern.inputs ∧ p.outputs = t'.pattern.outputs ∧
      ∀ v, List.Forall₂ SameCommand (p.at v).seq (t'.pattern.at v).seq := by
  obtain ⟨p, h1, h2, h3, h4⟩ := C65_replace_parameters t.pattern assignment copy fun _ v =>
    ⟨(C67_pattern_implements_circuit c hc v (hp v) ord hord eord he nbr hnbr t ht).1,
      (C67_pattern_implements_circuit c hc v (hp v) ord hord eord he nbr hnbr t ht).2.1⟩
  obtain ⟨c', g1, g2, -, g4⟩ := C67_replace_parameters c assignment copy'
  have hsame : ∀ v, (c'.at v).transpile ord eord nbr = (c.at (assigned assignment v)).transpile ord eord nbr := by
    intro v
    simp only [Circuit.transpile, Graphix.transpileSwaps, g4 v]
    rw [show (c'.at v).width = (c.at (assigned assignment v)).width from g2]
  have key : ∀ v, ∃ t', c'.transpile ord eord nbr = .ok t' ∧ t'.classicalOutputs = t.classicalOutputs ∧
      p.inputs = t'.pattern.inputs ∧ p.outputs = t'.pattern.outputs ∧ List.Forall₂ SameCommand (p.at v).seq (t'.pattern.at v).seq := by
    intro v
    obtain ⟨n, k1, k2⟩ := (PCircuit.transpile_at (assigned assignment v) c ord eord nbr).ok_left ht
    have k3 := PCircuit.transpile_at v c' ord eord nbr
    rw [hsame v] at k3
    obtain ⟨t', m1, m2⟩ := k3.ok_right k1
    refine ⟨t', m1, m2.classical.symm.trans k2.classical, ?_, ?_, ?_⟩
    · rw [h2, ← k2.pattern.inputs, m2.pattern.inputs]
    · rw [h3, ← k2.pattern.outputs, m2.pattern.outputs]
    · have e1 : (p.at v).seq = (t.pattern.at (assigned assignment v)).seq := h4 v
      rw [e1]
      have s1 : List.Forall₂ SameCommand (t.pattern.at (assigned assignment v)).seq n.pattern.seq := List.forall₂_map_left_iff.2 k2.pattern.seq
      have s2 : List.Forall₂ SameCommand (t'.pattern.at v).seq n.pattern.seq := List.forall₂_map_left_iff.2 m2.pattern.seq
      have s3 : List.Forall₂ SameCommand n.pattern.seq (t'.pattern.at v).seq := s2.flip.imp fun a b h => SameCommand.symm h
      exact sameCommands_trans s1 s3
  obtain ⟨t', m1, m2, m3, m4, -⟩ := key (fun _ => 0)
  refine ⟨p, c', t', h1, g1, m1, m2, m3, m4, fun v => ?_⟩
  obtain ⟨t'', n1, -, -, -, n5⟩ := key v
  rw [m1] at n1
  obtain rfl := Except.ok.inj n1
  exact n5

/-- A circuit with two parameters, swaps and no measurement. -/
noncomputable def exPCircuit : PCircuit :=
  ⟨2, [.H 0, .RX 0 (.aff 2 0 (1 / 2)), .SWAP 0 1, .RZZ 0 1 (Expr.placeholder 1), .J 1 (.num 3)], {0, 1}⟩

theorem exPCircuit_built : exPCircuit.Built := by
  refine ⟨2, exPCircuit.instrs, ?_⟩
  simp [exPCircuit, PCircuit.extend, PCircuit.new, PCircuit.add, PCircuit.instrOk, bind, Except.bind, Finset.ext_iff]
  omega

theorem exPCircuit_proper : ∀ v, ∀ i ∈ (exPCircuit.at v).instrs, i.Proper ∧ ¬ i.isId := by
  intro v
  simp [exPCircuit, PCircuit.at, PInstr.at, Instr.Proper, Instr.isId]

/-- The hypotheses are met. -/
example : ∃ t, exPCircuit.transpile exOrd id sortedNbr = .ok t := by
  obtain ⟨sw, h1, -, h2⟩ := C37_transpile_default_partial _ (exPCircuit_built.at fun _ => 0) (exPCircuit_proper fun _ => 0) exOrd exOrd_valid id
    idEdgeOrd_valid sortedNbr sortedNbr_valid
  obtain ⟨sw', h1', h3⟩ := C37_transpile_default_no_measure _ (exPCircuit_built.at fun _ => 0) (Or.inl rfl)
  rw [h1] at h1'; cases h1'
  obtain ⟨res, h4, -⟩ := h2 h3
  obtain ⟨t, ht, -⟩ := (PCircuit.transpile_at (fun _ => 0) exPCircuit exOrd id sortedNbr).ok_right h4
  exact ⟨t, ht⟩

example : exPCircuit.isParameterized = true ∧ (∀ t a, PInstr.M t a ∉ exPCircuit.instrs) ∧
    ∀ i ∈ exPCircuit.instrs, ∀ x ∈ i.params, ∃ r, (fun _ => some (Expr.num 1)) x = some (Expr.num r) := by
  refine ⟨by simp [PCircuit.isParameterized, exPCircuit], by simp [exPCircuit], fun _ _ _ _ => ⟨1, rfl⟩⟩

end Graphix
