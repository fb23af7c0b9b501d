import Verif.Model.Eigenstate
import Verif.Spec.PauliText
import Verif.Proofs.Measurement
import Verif.Props.Clifford

/-!
# Property C76: the eigenstates, the list and the text of the Paulis
-/

namespace Graphix

/-- `-1` for the second eigenstate of `X`, `Y`, `Z`; the identity has the same state for both. -/
def eigenSign (p : Pauli) (binary : ℤ) : ℂ := if p.symbol ≠ .I ∧ binary = 1 then -1 else 1

theorem eigenstate_cases {p : Pauli} {b : ℤ} {s : PlanarState} (h : p.eigenstate b = .ok s) :
    (b = 0 ∨ b = 1) ∧
      ((p.symbol = .I ∧ s = ⟨.XY, 0⟩) ∨
        (∃ c : Bool, (b = if c then 1 else 0) ∧
          ((p.symbol = .axis .X ∧ s = ⟨.XY, if c then 1 else 0⟩) ∨
            (p.symbol = .axis .Y ∧ s = ⟨.XY, if c then -1 / 2 else 1 / 2⟩) ∨
              (p.symbol = .axis .Z ∧ s = ⟨.XZ, if c then 1 else 0⟩)))) := by
  obtain ⟨sym, u⟩ := p
  by_cases hb : b = 0 ∨ b = 1
  · refine ⟨hb, ?_⟩
    rcases hb with rfl | rfl <;> rcases sym with _ | (_ | _ | _) <;>
      simp [Pauli.eigenstate, BasicStates.state, bind, Except.bind, pure, Except.pure] at h <;> subst h <;> simp
  · simp [Pauli.eigenstate, hb, bind, Except.bind, throw, throwThe, MonadExceptOf.throw] at h

/-- The states as planar observables. -/
theorem eigenstate_outer {p : Pauli} {b : ℤ} {s : PlanarState} (h : p.eigenstate b = .ok s) (hI : p.symbol ≠ .I) :
    outer s.vec = (1 / 2 : ℂ) • ((1 : Mat2) + (if b = 1 then (-1 : ℂ) else 1) • Ops.fromIxyz p.symbol) := by
  obtain ⟨hb, hc⟩ := eigenstate_cases h
  clear h
  have c1 : Real.cos (1 / 2 * Real.pi) = 0 := by rw [show 1 / 2 * Real.pi = Real.pi / 2 by ring, Real.cos_pi_div_two]
  have s1 : Real.sin (1 / 2 * Real.pi) = 1 := by rw [show 1 / 2 * Real.pi = Real.pi / 2 by ring, Real.sin_pi_div_two]
  have c2 : Real.cos (-1 / 2 * Real.pi) = 0 := by
    rw [show -1 / 2 * Real.pi = -(Real.pi / 2) by ring, Real.cos_neg, Real.cos_pi_div_two]
  have s2 : Real.sin (-1 / 2 * Real.pi) = -1 := by
    rw [show -1 / 2 * Real.pi = -(Real.pi / 2) by ring, Real.sin_neg, Real.sin_pi_div_two]
  rcases hc with ⟨hs, _⟩ | ⟨c, rfl, hs⟩
  · exact absurd hs hI
  rw [PlanarState.vec, outer_planarState]
  rcases hs with ⟨e, rfl⟩ | ⟨e, rfl⟩ | ⟨e, rfl⟩ <;> cases c <;>
    simp only [e, planeObservable, Plane.cos, Plane.sin, Ops.fromIxyz, Bool.false_eq_true, if_false, if_true, zero_mul, one_mul,
      Real.cos_zero, Real.sin_zero, Real.cos_pi, Real.sin_pi, c1, s1, c2, s2, Complex.ofReal_one, Complex.ofReal_zero,
      Complex.ofReal_neg, zero_smul, add_zero, zero_add, one_smul, zero_ne_one]

/-- `eigenstate` fails exactly for the arguments that are not bits. -/
theorem C76_fails (p : Pauli) (b : ℤ) :
    (b ≠ 0 ∧ b ≠ 1 → p.eigenstate b = .error .valueError) ∧ (b = 0 ∨ b = 1 → ∃ s, p.eigenstate b = .ok s) := by
  constructor
  · rintro ⟨h0, h1⟩
    simp [Pauli.eigenstate, h0, h1, bind, Except.bind, throw, throwThe, MonadExceptOf.throw]
  · obtain ⟨sym, u⟩ := p
    intro hb
    rcases sym with _ | (_ | _ | _) <;> simp [Pauli.eigenstate, hb, bind, Except.bind, pure, Except.pure]

theorem outer_mulVec (v w : Bool → ℂ) : (outer v).mulVec w = (star (v false) * w false + star (v true) * w true) • v := by
  funext i
  simp [Matrix.mulVec, dotProduct, outer]
  ring

theorem mulVec_of_outer {A : Mat2} {v : Bool → ℂ} {e : ℂ} (hv : UnitVec v) (h : A * outer v = e • outer v) :
    A.mulVec v = e • v := by
  have h1 : (outer v).mulVec v = v := by
    rw [outer_mulVec, show star (v false) * v false + star (v true) * v true = 1 from hv, one_smul]
  calc A.mulVec v = A.mulVec ((outer v).mulVec v) := by rw [h1]
    _ = e • v := by rw [Matrix.mulVec_mulVec, h, Matrix.smul_mulVec, h1]

theorem fromIxyz_sq (a : IXYZ) : Ops.fromIxyz a * Ops.fromIxyz a = 1 := by
  rcases a with _ | (_ | _ | _) <;>
    simp [Ops.fromIxyz, Ops.fromAxis, Ops.I, Ops.X, Ops.Y, Ops.Z, mat2_mul, mat2_one]

theorem eigenstate_symbol {p : Pauli} {b : ℤ} {s : PlanarState} (h : p.eigenstate b = .ok s) :
    (Ops.fromIxyz p.symbol).mulVec s.vec = eigenSign p b • s.vec := by
  by_cases hI : p.symbol = .I
  · simp [hI, eigenSign, Ops.fromIxyz, Ops.I, ← mat2_one]
  · have ho := eigenstate_outer h hI
    have hu : UnitVec s.vec := planarState_unit _ _
    apply mulVec_of_outer hu
    rw [ho]
    have e2 : eigenSign p b = if b = 1 then (-1 : ℂ) else 1 := by simp [eigenSign, hI]
    rw [e2, Matrix.mul_smul, Matrix.mul_add, Matrix.mul_one, Matrix.mul_smul, fromIxyz_sq, smul_comm]
    congr 1
    by_cases hb : b = 1 <;> simp [hb, add_comm]

/-- **C76 (eigenstates).** The state that `eigenstate` returns is a normalised eigenvector of the matrix of the Pauli.
The eigenvalue is the unit of the Pauli for `0`, and its opposite for `1`, except that the identity has one state. -/
theorem C76_eigenvector {p : Pauli} {b : ℤ} {s : PlanarState} (h : p.eigenstate b = .ok s) :
    ‖s.vec false‖ ^ 2 + ‖s.vec true‖ ^ 2 = 1 ∧
      p.matrix.mulVec s.vec = (p.unit.toComplex * if p.symbol ≠ .I ∧ b = 1 then -1 else 1) • s.vec := by
  constructor
  · have hu : UnitVec s.vec := planarState_unit _ _
    have : ((‖s.vec false‖ ^ 2 + ‖s.vec true‖ ^ 2 : ℝ) : ℂ) = 1 := by
      rw [← hu]
      push_cast
      simp only [Complex.star_def, Complex.conj_mul']
    exact_mod_cast this
  · have h1 := eigenstate_symbol h
    rw [Pauli.matrix, Matrix.smul_mulVec, h1, smul_smul]
    rfl

/-- **C76 (only one).** Every vector with the same eigenvalue is a multiple of the state (for `X`, `Y`, `Z`). -/
theorem C76_unique {p : Pauli} {b : ℤ} {s : PlanarState} (h : p.eigenstate b = .ok s) (hI : p.symbol ≠ .I) (w : Bool → ℂ)
    (hw : p.matrix.mulVec w = (p.unit.toComplex * if b = 1 then -1 else 1) • w) : ∃ c : ℂ, w = c • s.vec := by
  have hu : p.unit.toComplex ≠ 0 := by
    simp [ComplexUnit.toComplex]
  have hw' : (Ops.fromIxyz p.symbol).mulVec w = (if b = 1 then (-1 : ℂ) else 1) • w := by
    rw [Pauli.matrix, Matrix.smul_mulVec, mul_smul] at hw
    exact smul_right_injective _ hu hw
  refine ⟨star (s.vec false) * w false + star (s.vec true) * w true, ?_⟩
  rw [← outer_mulVec, eigenstate_outer h hI, Matrix.smul_mulVec, Matrix.add_mulVec, Matrix.one_mulVec, Matrix.smul_mulVec, hw', smul_smul]
  by_cases hb : b = 1
  · simp only [hb, if_true]
    funext i
    simp
    ring
  · simp only [hb, if_false]
    funext i
    simp
    ring

/-- **C76 (density matrix).** The density matrix of the eigenstate of `±X`, `±Y`, `±Z` (any unit) is `(1 ± σ) / 2`. -/
theorem C76_density {p : Pauli} {b : ℤ} {s : PlanarState} (h : p.eigenstate b = .ok s) (hI : p.symbol ≠ .I) :
    s.densityMatrix = (1 / 2 : ℂ) • ((1 : Mat2) + (if b = 1 then (-1 : ℂ) else 1) • Ops.fromIxyz p.symbol) :=
  eigenstate_outer h hI

/-- **C76 (the two states).** The two states are orthogonal (for `X`, `Y`, `Z`). -/
theorem C76_orthogonal {p : Pauli} {s t : PlanarState} (h0 : p.eigenstate 0 = .ok s) (h1 : p.eigenstate 1 = .ok t)
    (hI : p.symbol ≠ .I) : star (s.vec false) * t.vec false + star (s.vec true) * t.vec true = 0 := by
  have e : (outer s.vec).mulVec t.vec = 0 := by
    have e1 := eigenstate_symbol h1
    rw [eigenstate_outer h0 hI, Matrix.smul_mulVec, Matrix.add_mulVec, Matrix.one_mulVec, Matrix.smul_mulVec, e1]
    simp [eigenSign, hI]
  rw [outer_mulVec] at e
  have hu : UnitVec s.vec := planarState_unit _ _
  rcases smul_eq_zero.1 e with h | h
  · exact h
  · exfalso
    rw [UnitVec, h] at hu
    simp at hu

/-- **C76 (measured).** Measuring the Pauli (with a sign) an eigenstate of which was prepared: the state is kept for
the outcome that the sign and the binary say, and the other outcome has probability zero. -/
theorem C76_measured {m : PauliMeasurement} {b : ℤ} {s : PlanarState} (h : m.toPauli.eigenstate b = .ok s) (r : Bool) :
    (measureOperator (.pauli m) r).mulVec s.vec =
      if r = ((m.sign == .minus) ^^ (b == 1)) then s.vec else 0 := by
  obtain ⟨a, sg⟩ := m
  have hb := (eigenstate_cases h).1
  have h1 : (Ops.fromAxis a).mulVec s.vec = (if b = 1 then (-1 : ℂ) else 1) • s.vec := by
    have := eigenstate_symbol h
    have e : (PauliMeasurement.toPauli ⟨a, sg⟩).symbol = .axis a := rfl
    simpa [e, eigenSign, Ops.fromIxyz] using this
  rw [measureOperator_eq, Matrix.smul_mulVec, Matrix.add_mulVec, Matrix.one_mulVec, Matrix.smul_mulVec, observable,
    Matrix.smul_mulVec, h1]
  rcases hb with rfl | rfl <;> cases r <;> cases sg <;> (funext i; simp [Sign.toComplex, Sign.toInt, ← two_mul])

/-- **C76 (iteration).** Iterating over `Pauli` yields each of the sixteen Paulis exactly once; with `symbol_only`,
exactly once each of the four of unit 1. -/
theorem C76_iterate : (Pauli.iterate false).Nodup ∧ (∀ p, p ∈ Pauli.iterate false) ∧ (Pauli.iterate true).Nodup ∧
    ∀ p, p ∈ Pauli.iterate true ↔ p.unit = .one := by
  refine ⟨by decide, by decide, by decide, by decide⟩

/-- **C76 (text).** The expression printed by `repr` evaluates to the Pauli, and `str` (the same without the prefix)
also reads back. -/
theorem C76_text (p : Pauli) : readPauli "Pauli.".toList p.repr.toList = some p ∧ readPauli [] p.str.toList = some p := by
  revert p
  decide +kernel

/-- Non-vacuity: the second eigenstate of `1j * Y` is `|-i⟩`, its eigenvalue is `-i`. -/
example : (⟨.axis .Y, .j⟩ : Pauli).eigenstate 1 = .ok ⟨.XY, -1 / 2⟩ := by
  simp [Pauli.eigenstate, BasicStates.state, bind, Except.bind, pure, Except.pure]

/-- The sign of the Pauli does not change the state: the first state of `-X` is `|+⟩`, with eigenvalue `-1`. -/
example : (⟨.axis .X, .minusOne⟩ : Pauli).eigenstate 0 = .ok PlanarState.plus := by
  simp [Pauli.eigenstate, BasicStates.state, PlanarState.plus, bind, Except.bind, pure, Except.pure]

/-- Measuring `-Z` on `|1⟩` gives the outcome 0. -/
example : (measureOperator (.pauli ⟨.Z, .minus⟩) false).mulVec (PlanarState.vec ⟨.XZ, 1⟩) = PlanarState.vec ⟨.XZ, 1⟩ := by
  have h : (PauliMeasurement.toPauli ⟨.Z, .minus⟩).eigenstate 1 = .ok ⟨.XZ, 1⟩ := by
    simp [Pauli.eigenstate, BasicStates.state, PauliMeasurement.toPauli, Pauli.fromAxis, Pauli.mulUnit, bind, Except.bind,
      pure, Except.pure]
  have := C76_measured h false
  simpa using this

example : (⟨.axis .Y, .minusJ⟩ : Pauli).repr = "-1j * Pauli.Y" := by decide

end Graphix
