import Verif.Spec.CircuitText
import Verif.Props.PrintPattern

/-!
# Property C78: the text of a circuit
-/

namespace Graphix

open scoped Classical

theorem angleValue_str (env : PpEnv) (a : ℝ) :
    ∃ x : ℝ, angleValue (angleToStr env a) = some (x * Real.pi) ∧ |a - x| ≤ 1 / 10 ^ 9 * max |a| |x| := by
  obtain ⟨x, h1, h2⟩ := read_angleToStr env a
  exact ⟨x, by rw [angleValue, h1]; simp, h2⟩

/-- The text of an instruction is that of the same instruction with its angle in radians. -/
theorem evalInstr_repr (env : PpEnv) (i : Instr) :
    ∃ j, SameInRadians i j ∧ ∀ rest, evalInstr (reprInstr env i ++ rest) = some (j, rest) := by
  cases i with
  | CCX c0 c1 t => exact ⟨.CCX c0 c1 t, rfl, fun rest => by simp [reprInstr, callToks, joinInstrs, pairToks, evalInstr]⟩
  | RZZ c t θ =>
    obtain ⟨x, h1, h2⟩ := angleValue_str env θ
    exact ⟨.RZZ c t (x * Real.pi), ⟨rfl, rfl, x, rfl, h2⟩, fun rest => by simp [reprInstr, callToks, joinInstrs, reprAngle, evalInstr, h1]⟩
  | CNOT c t => exact ⟨.CNOT c t, rfl, fun rest => by simp [reprInstr, callToks, joinInstrs, evalInstr]⟩
  | SWAP u v => exact ⟨.SWAP u v, rfl, fun rest => by simp [reprInstr, callToks, joinInstrs, pairToks, evalInstr]⟩
  | CZ u v => exact ⟨.CZ u v, rfl, fun rest => by simp [reprInstr, callToks, joinInstrs, pairToks, evalInstr]⟩
  | H t => exact ⟨.H t, rfl, fun rest => by simp [reprInstr, callToks, joinInstrs, evalInstr, instr1]⟩
  | S t => exact ⟨.S t, rfl, fun rest => by simp [reprInstr, callToks, joinInstrs, evalInstr, instr1]⟩
  | X t => exact ⟨.X t, rfl, fun rest => by simp [reprInstr, callToks, joinInstrs, evalInstr, instr1]⟩
  | Y t => exact ⟨.Y t, rfl, fun rest => by simp [reprInstr, callToks, joinInstrs, evalInstr, instr1]⟩
  | Z t => exact ⟨.Z t, rfl, fun rest => by simp [reprInstr, callToks, joinInstrs, evalInstr, instr1]⟩
  | I t => exact ⟨.I t, rfl, fun rest => by simp [reprInstr, callToks, joinInstrs, evalInstr, instr1]⟩
  | M t a => exact ⟨.M t a, rfl, fun rest => by cases a <;> simp [reprInstr, callToks, joinInstrs, evalInstr, axisToks]⟩
  | RX t θ =>
    obtain ⟨x, h1, h2⟩ := angleValue_str env θ
    exact ⟨.RX t (x * Real.pi), ⟨rfl, x, rfl, h2⟩, fun rest => by simp [reprInstr, callToks, joinInstrs, reprAngle, evalInstr, h1, instrRotation]⟩
  | RY t θ =>
    obtain ⟨x, h1, h2⟩ := angleValue_str env θ
    exact ⟨.RY t (x * Real.pi), ⟨rfl, x, rfl, h2⟩, fun rest => by simp [reprInstr, callToks, joinInstrs, reprAngle, evalInstr, h1, instrRotation]⟩
  | RZ t θ =>
    obtain ⟨x, h1, h2⟩ := angleValue_str env θ
    exact ⟨.RZ t (x * Real.pi), ⟨rfl, x, rfl, h2⟩, fun rest => by simp [reprInstr, callToks, joinInstrs, reprAngle, evalInstr, h1, instrRotation]⟩
  | J t θ =>
    obtain ⟨x, h1, h2⟩ := angleValue_str env θ
    exact ⟨.J t (x * Real.pi), ⟨rfl, x, rfl, h2⟩, fun rest => by simp [reprInstr, callToks, joinInstrs, reprAngle, evalInstr, h1, instrRotation]⟩

theorem instr_starts (env : PpEnv) (i : Instr) : ∃ s l, reprInstr env i = .name s :: l := by
  cases i <;> exact ⟨_, _, rfl⟩

theorem evalInstrs_repr (env : PpEnv) (is : List Instr) :
    ∃ js, List.Forall₂ SameInRadians is js ∧ ∀ {n : ℕ}, is.length ≤ n → ∀ rest,
      evalInstrs n (joinInstrs (is.map (reprInstr env)) ++ .rbrack :: rest) = some (js, rest) := by
  induction is with
  | nil => exact ⟨[], .nil, fun _ rest => by simp [joinInstrs, evalInstrs]⟩
  | cons i is ih =>
    obtain ⟨js, hjs, ih⟩ := ih
    obtain ⟨j, hj, hi⟩ := evalInstr_repr env i
    refine ⟨j :: js, .cons hj hjs, ?_⟩
    intro n hn rest
    obtain _ | n := n
    · simp at hn
    obtain ⟨s, l, e⟩ := instr_starts env i
    have key1 : ∀ tail, evalInstrs (n + 1) (reprInstr env i ++ .rbrack :: tail) = some ([j], tail) := by
      intro tail
      have hc := hi (.rbrack :: tail)
      rw [e] at hc ⊢
      rw [evalInstrs]
      · rw [hc]
      · simp
    have key2 : ∀ tail, evalInstrs (n + 1) (reprInstr env i ++ .comma :: tail) = (evalInstrs n tail).map fun r => (j :: r.1, r.2) := by
      intro tail
      have hc := hi (.comma :: tail)
      rw [e] at hc ⊢
      rw [evalInstrs]
      · rw [hc]
      · simp
    cases is with
    | nil =>
      cases hjs
      simp only [List.map_cons, List.map_nil, joinInstrs, key1]
    | cons d is =>
      have := ih (n := n) (by simpa using hn) rest
      simp only [List.map_cons, joinInstrs, List.append_assoc, List.cons_append, key2] at this ⊢
      rw [this]
      rfl

theorem length_joinInstrs (env : PpEnv) (is : List Instr) : is.length ≤ (joinInstrs (is.map (reprInstr env))).length := by
  induction is with
  | nil => simp
  | cons i is ih =>
    obtain ⟨s, l, e⟩ := instr_starts env i
    cases is with
    | nil => simp [joinInstrs, e]
    | cons j js =>
      simp only [List.map_cons, joinInstrs, List.length_append, List.length_cons, e] at ih ⊢
      omega

/-- **C78 (the text).** The text of a circuit gives its width and, in order, its instructions on their qubits, with the angles in radians (they are
rounded by at most a relative error of `10⁻⁹`). -/
theorem C78_text_partial (env : PpEnv) (c : Circuit) :
    ∃ is, evalCircuit (c.repr env) = some (c.width, is) ∧ List.Forall₂ SameInRadians c.instrs is := by
  obtain ⟨js, h1, h2⟩ := evalInstrs_repr env c.instrs
  refine ⟨js, ?_, h1⟩
  have hl : c.instrs.length ≤ (joinInstrs (c.instrs.map (reprInstr env)) ++ [ITok.rbrack, ITok.rpar]).length := by
    have := length_joinInstrs env c.instrs
    simp only [List.length_append]
    omega
  have h := h2 hl [.rpar]
  simp only [Circuit.repr, List.cons_append, List.nil_append, evalCircuit]
  rw [if_pos (by decide), h]

/-- An instruction without angle. -/
def Instr.noAngle : Instr → Bool
  | .RZZ .. | .RX .. | .RY .. | .RZ .. | .J .. => false
  | _ => true

/-- **C78 (no angles).** The text of a circuit without rotations has the circuit as its value. -/
theorem C78_no_angle_partial (env : PpEnv) (c : Circuit) (h : ∀ i ∈ c.instrs, i.noAngle = true) : evalCircuit (c.repr env) = some (c.width, c.instrs) := by
  obtain ⟨is, h1, h2⟩ := C78_text_partial env c
  have : c.instrs = is := by
    clear h1
    generalize c.instrs = l at h h2
    induction h2 with
    | nil => rfl
    | @cons a b l l' hab hl ih =>
      have ha := h a List.mem_cons_self
      rw [ih fun i hi => h i (List.mem_cons_of_mem _ hi)]
      cases a <;> simp [Instr.noAngle] at ha <;> simp only [SameInRadians] at hab <;> rw [hab]
  rw [h1, this]

/-- **C78 (not the circuit).** Angles are in units of `π` in the constructors, but in radians in the text: the text of `RX(0, 0.5)` is
`RX(0, pi/2)`, whose value is another rotation. -/
theorem C78_angle_unit (env : PpEnv) :
    ∃ is, evalCircuit (Circuit.repr env ⟨1, [.RX 0 (1 / 2)], {0}⟩) = some (1, is) ∧ is ≠ [.RX 0 (1 / 2)] := by
  obtain ⟨is, h1, h2⟩ := C78_text_partial env ⟨1, [.RX 0 (1 / 2)], {0}⟩
  refine ⟨is, h1, ?_⟩
  rintro rfl
  simp only [List.forall₂_cons, SameInRadians] at h2
  obtain ⟨⟨-, x, hx, hb⟩, -⟩ := h2
  have hpi := Real.two_le_pi
  have hx' : x = 1 / 2 / Real.pi := by field_simp at hx ⊢; linarith
  have h3 : x ≤ 1 / 4 := by
    rw [hx', div_le_iff₀ (by linarith)]
    linarith
  have h0 : 0 < x := by rw [hx']; positivity
  rw [abs_of_pos (by linarith), abs_of_pos (by norm_num : (0 : ℝ) < 1 / 2), abs_of_pos h0, max_eq_left (by linarith)] at hb
  norm_num at hb
  linarith

/-- Non-vacuity: a circuit with controls, a pair, an axis and rotations. -/
example (env : PpEnv) : ∃ is, evalCircuit (Circuit.repr env ⟨3, [.H 0, .RX 1 1, .CCX 1 2 0, .CNOT 0 1, .M 2 .Y], {0, 1}⟩) = some (3, is) ∧
    List.Forall₂ SameInRadians [.H 0, .RX 1 1, .CCX 1 2 0, .CNOT 0 1, .M 2 .Y] is :=
  C78_text_partial env _

end Graphix
