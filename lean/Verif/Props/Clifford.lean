import Verif.Proofs.Clifford
import Verif.Spec.Parity

/-!
# Properties C01-C04, C07: Clifford gates and Pauli operators

Matrices are over the exact complex numbers; `MatPhaseEq U V` says `U = c V` with `|c| = 1`.
-/

namespace Graphix

/-! ## C01 -/

/-- **C01** `a @ b` denotes the matrix product, up to a global phase. -/
theorem C01_clifford_matmul (a b : Clifford) : MatPhaseEq (a.mul b).matrix (a.matrix * b.matrix) :=
  (Clifford.mul_matrix a b).symm

/-- **C01** `a.conj` denotes the adjoint of `a`, up to a global phase, and the adjoint is the
inverse. -/
theorem C01_clifford_conj (a : Clifford) :
    MatPhaseEq a.conj.matrix a.matrix.conjTranspose ∧
    a.matrix * a.matrix.conjTranspose = 1 ∧ a.matrix.conjTranspose * a.matrix = 1 :=
  ⟨(Clifford.conj_matrix a).symm, Clifford.matrix_unitary' a, Clifford.matrix_unitary a⟩

/-- The named members `Clifford.I`, `X`, `Y`, `Z`, `S`, `SDG`, `H` have the matrices of `Ops`. -/
theorem C01_named_gates :
    Clifford.I.matrix = Ops.I ∧ Clifford.X.matrix = Ops.X ∧ Clifford.Y.matrix = Ops.Y ∧
    Clifford.Z.matrix = Ops.Z ∧ Clifford.S.matrix = Ops.S ∧ Clifford.SDG.matrix = Ops.SDG ∧
    Clifford.H.matrix = Ops.H :=
  ⟨Clifford.matrix_I.trans mat2_one, Clifford.matrix_X, Clifford.matrix_Y, Clifford.matrix_Z,
    Clifford.matrix_S, Clifford.matrix_SDG, Clifford.matrix_H⟩

/-! ## C02 -/

/-- Product of matrices in list order. -/
noncomputable def matProd (l : List Mat2) : Mat2 := l.foldr (· * ·) 1

/-- Specification of the OpenQASM 3 gate names of `stdgates.inc` used by `Clifford.qasm3`;
`none` for an unknown name. -/
noncomputable def qasm3Gate : String → Option Mat2
  | "id" => some 1
  | "x" => some Ops.X
  | "y" => some Ops.Y
  | "z" => some Ops.Z
  | "s" => some Ops.S
  | "sdg" => some Ops.SDG
  | "h" => some Ops.H
  | _ => none

/-- The Clifford named by a QASM gate. -/
def qasm3Clifford : String → Option Clifford
  | "id" => some .I
  | "x" => some .X
  | "y" => some .Y
  | "z" => some .Z
  | "s" => some .S
  | "sdg" => some .SDG
  | "h" => some .H
  | _ => none

theorem qasm3Gate_eq (s : String) : qasm3Gate s = (qasm3Clifford s).map Clifford.matrix := by
  unfold qasm3Gate qasm3Clifford
  split <;> simp [Clifford.matrix_I, Clifford.matrix_X, Clifford.matrix_Y, Clifford.matrix_Z,
    Clifford.matrix_S, Clifford.matrix_SDG, Clifford.matrix_H]

theorem matProd_mul (l : List Clifford) :
    MatPhaseEq (matProd (l.map Clifford.matrix)) (l.foldr Clifford.mul Clifford.I).matrix := by
  induction l with
  | nil => exact MatPhaseEq.of_eq Clifford.matrix_I.symm
  | cons c l ih =>
    exact ((MatPhaseEq.refl c.matrix).mul ih).trans (Clifford.mul_matrix c _)

theorem hsz_check : ∀ c : Fin 24,
    (Clifford.ofFin c).hsz.foldr Clifford.mul Clifford.I = Clifford.ofFin c := by decide +kernel

theorem hsz_mem_check : ∀ c : Fin 24, ∀ g ∈ (Clifford.ofFin c).hsz,
    g = Clifford.I ∨ g = Clifford.H ∨ g = Clifford.S ∨ g = Clifford.Z := by decide +kernel

theorem qasm3_check : ∀ c : Fin 24,
    ((Clifford.ofFin c).qasm3.mapM qasm3Clifford).map
      (fun l => l.reverse.foldr Clifford.mul Clifford.I) = some (Clifford.ofFin c) := by
  decide +kernel

theorem mapM_qasm3Gate (l : List String) :
    l.mapM qasm3Gate = (l.mapM qasm3Clifford).map (List.map Clifford.matrix) := by
  induction l with
  | nil => rfl
  | cons a l ih =>
    simp only [List.mapM_cons, ih, qasm3Gate_eq]
    cases qasm3Clifford a with
    | none => rfl
    | some x => cases List.mapM qasm3Clifford l <;> rfl

/-- **C02** The gates of `c.hsz`, multiplied in list order (`repr(c)` prints them joined by `@`),
give `c` up to a global phase. -/
theorem C02_hsz (c : Clifford) : MatPhaseEq (matProd (c.hsz.map Clifford.matrix)) c.matrix := by
  have h := matProd_mul c.hsz
  rwa [show c.hsz.foldr Clifford.mul Clifford.I = c from hsz_check c] at h

/-- **C02** `c.hsz` only uses the gates I, H, S, Z. -/
theorem C02_hsz_gates (c : Clifford) (g : Clifford) (h : g ∈ c.hsz) :
    g = Clifford.I ∨ g = Clifford.H ∨ g = Clifford.S ∨ g = Clifford.Z := hsz_mem_check c g h

/-- **C02** Running the QASM gates of `c.qasm3` one after the other (the first listed gate acts
first, i.e. is the rightmost factor) gives `c` up to a global phase; every name is a known gate. -/
theorem C02_qasm3 (c : Clifford) :
    ∃ l : List Mat2, c.qasm3.mapM qasm3Gate = some l ∧ MatPhaseEq (matProd l.reverse) c.matrix := by
  have h := qasm3_check c
  change (c.qasm3.mapM qasm3Clifford).map _ = some c at h
  rw [mapM_qasm3Gate]
  cases hm : c.qasm3.mapM qasm3Clifford with
  | none => simp [hm] at h
  | some l =>
    refine ⟨l.map Clifford.matrix, rfl, ?_⟩
    rw [hm] at h
    simp only [Option.map_some, Option.some.injEq] at h
    rw [← List.map_reverse]
    have h2 := matProd_mul l.reverse
    rwa [h] at h2

/-! ## C07: Pauli arithmetic -/

theorem ComplexUnit.toComplex_cases :
    ComplexUnit.one.toComplex = 1 ∧ ComplexUnit.j.toComplex = Complex.I ∧
    ComplexUnit.minusOne.toComplex = -1 ∧ ComplexUnit.minusJ.toComplex = -Complex.I := by
  refine ⟨?_, ?_, ?_, ?_⟩ <;> simp [ComplexUnit.toComplex, ComplexUnit.value]

/-- **C07** `ComplexUnit` multiplication is complex multiplication. -/
theorem C07_unit_mul (u v : ComplexUnit) : (u.mul v).toComplex = u.toComplex * v.toComplex := by
  obtain ⟨h1, h2, h3, h4⟩ := ComplexUnit.toComplex_cases
  cases u <;> cases v <;>
    simp only [ComplexUnit.mul, ComplexUnit.value] <;>
    first
      | (rw [show ComplexUnit.ofValue _ = ComplexUnit.one from rfl]; simp [h1, h2, h3, h4])
      | (rw [show ComplexUnit.ofValue _ = ComplexUnit.j from rfl]; simp [h1, h2, h3, h4])
      | (rw [show ComplexUnit.ofValue _ = ComplexUnit.minusOne from rfl]; simp [h1, h2, h3, h4])
      | (rw [show ComplexUnit.ofValue _ = ComplexUnit.minusJ from rfl]; simp [h1, h2, h3, h4])

/-- **C07** `-u` is complex negation. -/
theorem C07_unit_neg (u : ComplexUnit) : u.neg.toComplex = -u.toComplex := by
  obtain ⟨h1, h2, h3, h4⟩ := ComplexUnit.toComplex_cases
  cases u
  · rw [show ComplexUnit.one.neg = .minusOne from rfl]; simp [h1, h3]
  · rw [show ComplexUnit.j.neg = .minusJ from rfl]; simp [h2, h4]
  · rw [show ComplexUnit.minusOne.neg = .one from rfl]; simp [h1, h3]
  · rw [show ComplexUnit.minusJ.neg = .j from rfl]; simp [h2, h4]

/-- **C07** A unit is `sign` times `1` or `j` according to `is_imag`, and `from_properties`
rebuilds it. -/
theorem C07_unit_properties (u : ComplexUnit) :
    u.toComplex = u.sign.toComplex * (if u.isImag then Complex.I else 1) ∧
    ComplexUnit.fromProperties u.sign u.isImag = u := by
  obtain ⟨h1, h2, h3, h4⟩ := ComplexUnit.toComplex_cases
  refine ⟨?_, by cases u <;> rfl⟩
  cases u
  · simp [h1, show ComplexUnit.one.sign = .plus from rfl, show ComplexUnit.one.isImag = false from rfl,
      Sign.toComplex, Sign.toInt]
  · simp [h2, show ComplexUnit.j.sign = .plus from rfl, show ComplexUnit.j.isImag = true from rfl,
      Sign.toComplex, Sign.toInt]
  · simp [h3, show ComplexUnit.minusOne.sign = .minus from rfl,
      show ComplexUnit.minusOne.isImag = false from rfl, Sign.toComplex, Sign.toInt]
  · simp [h4, show ComplexUnit.minusJ.sign = .minus from rfl,
      show ComplexUnit.minusJ.isImag = true from rfl, Sign.toComplex, Sign.toInt]

/-- **C07** `Sign` arithmetic is arithmetic of `1` and `-1`. -/
theorem C07_sign (s t : Sign) (k : ℤ) (z : ℂ) :
    (s.mul t).toInt = s.toInt * t.toInt ∧ s.neg.toInt = -s.toInt ∧ s.mulInt k = s.toInt * k ∧
    s.mulComplex z = (s.toInt : ℂ) * z := by
  refine ⟨by cases s <;> cases t <;> rfl, by cases s <;> rfl, rfl, rfl⟩

theorem matmulImpl_matrix (p q : IXYZ) :
    (Pauli.matmulImpl p q).matrix = Ops.fromIxyz p * Ops.fromIxyz q := by
  obtain ⟨h1, h2, h3, h4⟩ := ComplexUnit.toComplex_cases
  rcases p with _ | p <;> rcases q with _ | q <;> (try cases p) <;> (try cases q) <;>
    simp [Pauli.matmulImpl, Pauli.matrix, Ops.fromIxyz, Ops.fromAxis, Ops.I, Ops.X, Ops.Y, Ops.Z,
      mat2_mul, mat2_smul, mat2_neg, h1, h2, h4]

/-- **C07** `p @ q` is exactly the matrix product. -/
theorem C07_pauli_matmul (p q : Pauli) : (p.matmul q).matrix = p.matrix * q.matrix := by
  have h := matmulImpl_matrix p.symbol q.symbol
  unfold Pauli.matrix at h ⊢
  simp only [Pauli.matmul, Pauli.mulUnit, C07_unit_mul, Matrix.smul_mul, Matrix.mul_smul,
    smul_smul]
  rw [← h, smul_smul]
  congr 1; ring

/-- **C07** `-p` is exactly the opposite matrix. -/
theorem C07_pauli_neg (p : Pauli) : p.neg.matrix = -p.matrix := by
  simp [Pauli.matrix, Pauli.neg, C07_unit_neg]

/-- **C07** Multiplying a Pauli by a complex unit scales its matrix. -/
theorem C07_pauli_mul_unit (p : Pauli) (u : ComplexUnit) :
    (p.mulUnit u).matrix = u.toComplex • p.matrix := by
  simp [Pauli.matrix, Pauli.mulUnit, C07_unit_mul, smul_smul, mul_comm]

/-- **C07** `ComplexUnit.from_or_none(complex(u))` returns `u`, for every tolerance below 1. -/
theorem C07_from_or_none (u : ComplexUnit) (relTol absTol : ℝ) (_hr : 0 ≤ relTol) (hr1 : relTol < 1)
    (ha : 0 ≤ absTol) (ha1 : absTol < 1) :
    ComplexUnit.fromOrNone u.toComplex relTol absTol = some u := by
  have hself : ∀ z : ℂ, ComplexUnit.IsClose z z relTol absTol := by
    intro z; simp [ComplexUnit.IsClose, ha]
  have hfar : ∀ z w : ℂ, ‖z‖ = 1 → ‖w‖ = 1 → 1 ≤ ‖z - w‖ → ¬ ComplexUnit.IsClose z w relTol absTol := by
    intro z w hz hw hzw
    simp only [ComplexUnit.IsClose, hz, hw, max_self, mul_one, not_le]
    exact lt_of_lt_of_le (max_lt hr1 ha1) hzw
  obtain ⟨h1, h2, h3, h4⟩ := ComplexUnit.toComplex_cases
  have n2 : (1 : ℝ) ≤ ‖(2 : ℂ)‖ := by simp
  have hIm : ∀ z : ℂ, 1 ≤ |z.im| → 1 ≤ ‖z‖ := fun z hz => hz.trans (Complex.abs_im_le_norm z)
  unfold ComplexUnit.fromOrNone
  cases u
  · rw [h1, if_pos (hself _)]
  · rw [h2, if_neg (hfar _ _ (by simp) (by simp) (hIm _ (by simp))),
      if_neg (hfar _ _ (by simp) (by simp) (hIm _ (by simp))), if_pos (hself _)]
  · rw [h3, if_neg (hfar _ _ (by simp) (by simp) (by norm_num)), if_pos (hself _)]
  · rw [h4, if_neg (hfar _ _ (by simp) (by simp) (hIm _ (by simp))),
      if_neg (hfar _ _ (by simp) (by simp) (hIm _ (by simp))),
      if_neg (hfar _ _ (by simp) (by simp) (hIm _ (by norm_num))), if_pos (hself _)]

/-- the hypotheses hold for the default tolerances -/
example : (0:ℝ) ≤ 1e-9 ∧ (1e-9 : ℝ) < 1 ∧ (0:ℝ) ≤ 0 ∧ (0:ℝ) < 1 := by norm_num

/-! ## C03 -/

/-- transcription of signed axes, for the table check -/
def signedAxisCMat (a : Axis) (s : Sign) : CMat :=
  match a with
  | .X => ⟨0, ⟨0, 0⟩, ⟨s.toInt, 0⟩, ⟨s.toInt, 0⟩, ⟨0, 0⟩⟩
  | .Y => ⟨0, ⟨0, 0⟩, ⟨0, -s.toInt⟩, ⟨0, s.toInt⟩, ⟨0, 0⟩⟩
  | .Z => ⟨0, ⟨s.toInt, 0⟩, ⟨0, 0⟩, ⟨0, 0⟩, ⟨-s.toInt, 0⟩⟩

theorem signedAxisCMat_toMat (a : Axis) (s : Sign) :
    (signedAxisCMat a s).toMat = s.toComplex • Ops.fromAxis a := by
  cases a <;> simp [signedAxisCMat, CMat.toMat, GI.toC, Ops.fromAxis, Ops.X, Ops.Y, Ops.Z,
    mat2_smul, Sign.toComplex]

/-- The (axis, sign) pair that `measure_axis` reads in the table. -/
def measureEntry (c : Clifford) (a : Axis) : Axis × Sign :=
  let table := lookup cliffordMeasureTable c ((.X, .plus), (.Y, .plus), (.Z, .plus))
  match a with
  | .X => table.1
  | .Y => table.2.1
  | .Z => table.2.2

theorem measure_check : ∀ c : Fin 24, ∀ a : Axis,
    (((Clifford.ofFin c).cmat.adj.mul (signedAxisCMat a .plus)).mul (Clifford.ofFin c).cmat).k =
      0 + 2 * (Clifford.ofFin c).cmat.k ∧
    ((Clifford.ofFin c).cmat.adj.mul (signedAxisCMat a .plus)).mul (Clifford.ofFin c).cmat =
      { CMat.scale ⟨2 ^ (Clifford.ofFin c).cmat.k, 0⟩
          (signedAxisCMat (measureEntry (Clifford.ofFin c) a).1 (measureEntry (Clifford.ofFin c) a).2)
        with k := 0 + 2 * (Clifford.ofFin c).cmat.k } := by
  decide +kernel

theorem signedAxisCMat_k (a : Axis) (s : Sign) : (signedAxisCMat a s).k = 0 := by
  cases a <;> rfl

theorem measure_entry_matrix (c : Clifford) (a : Axis) :
    c.matrix.conjTranspose * Ops.fromAxis a * c.matrix =
      (measureEntry c a).2.toComplex • Ops.fromAxis (measureEntry c a).1 := by
  have h := measure_check c a
  have h1 : (((Clifford.ofFin c).cmat.adj.mul (signedAxisCMat a .plus)).mul
      (Clifford.ofFin c).cmat).toMat =
      (signedAxisCMat (measureEntry c a).1 (measureEntry c a).2).toMat := by
    apply CMat.eq_of_check (r := (Clifford.ofFin c).cmat.k)
    · rw [h.1, signedAxisCMat_k]
    · rw [h.2]; exact ⟨rfl, rfl, rfl, rfl⟩
  rw [CMat.toMat_mul, CMat.toMat_mul, CMat.toMat_adj, signedAxisCMat_toMat,
    signedAxisCMat_toMat] at h1
  have e : (Sign.plus).toComplex = 1 := by simp [Sign.toComplex, Sign.toInt]
  rw [e, one_smul] at h1
  exact h1

theorem measureAxis_matrix (c : Clifford) (a : Axis) :
    (c.measureAxis a).matrix = c.matrix.conjTranspose * Ops.fromAxis a * c.matrix := by
  rw [measure_entry_matrix]
  have hu : ∀ s : Sign, (ComplexUnit.fromProperties (sign := s)).toComplex = s.toComplex := by
    intro s
    have h := C07_unit_properties (ComplexUnit.fromProperties (sign := s))
    rw [h.1]
    cases s <;> simp [ComplexUnit.fromProperties, ComplexUnit.sign, ComplexUnit.isImag,
      ComplexUnit.ofValue, ComplexUnit.value, Sign.plusIf]
  cases a <;> simp [Clifford.measureAxis, measureEntry, Pauli.matrix, Ops.fromIxyz, hu]

/-- **C03** `c.measure(p)` is exactly `c† p c`, with its sign and phase. -/
theorem C03_measure (c : Clifford) (p : Pauli) :
    (c.measure p).matrix = c.matrix.conjTranspose * p.matrix * c.matrix := by
  obtain ⟨sym, u⟩ := p
  cases sym with
  | I =>
    have h := Clifford.matrix_unitary c
    simp only [Clifford.measure, Pauli.matrix, Ops.fromIxyz, Ops.I, ← mat2_one,
      Matrix.mul_smul, Matrix.smul_mul, mul_one, h]
  | axis a =>
    simp only [Clifford.measure, C07_pauli_mul_unit, measureAxis_matrix]
    simp only [Pauli.matrix, Ops.fromIxyz, Matrix.mul_smul, Matrix.smul_mul]

/-! The gates are pairwise different, so C01 determines `a @ b` uniquely. -/

theorem Pauli.matrix_injective {p q : Pauli} (h : p.matrix = q.matrix) : p = q := by
  obtain ⟨h1, h2, h3, h4⟩ := ComplexUnit.toComplex_cases
  have e1 := congrFun (congrFun h false) false
  have e2 := congrFun (congrFun h false) true
  have e3 := congrFun (congrFun h true) false
  have e4 := congrFun (congrFun h true) true
  obtain ⟨sp, up⟩ := p
  obtain ⟨sq, uq⟩ := q
  have one_ne : (1 : ℂ) ≠ -1 := by norm_num
  have I1 : Complex.I ≠ 1 := fun h => by simpa using congrArg Complex.im h
  have I2 : Complex.I ≠ -1 := fun h => by simpa using congrArg Complex.im h
  have I3 : Complex.I ≠ -Complex.I := fun h => by
    have := congrArg Complex.im h; norm_num at this
  have I4 : -Complex.I ≠ 1 := fun h => by simpa using congrArg Complex.im h
  have I5 : -Complex.I ≠ -1 := fun h => by simpa using congrArg Complex.im h
  rcases sp with _ | sp <;> rcases sq with _ | sq <;> (try cases sp) <;> (try cases sq) <;>
    cases up <;> cases uq <;>
    first
    | rfl
    | (exfalso; revert e1 e2 e3 e4
       simp [Pauli.matrix, Ops.fromIxyz, Ops.fromAxis, Ops.I, Ops.X, Ops.Y, Ops.Z, h1, h2, h3, h4,
        one_ne, one_ne.symm, I1, I2, I3, I4, I5, I1.symm, I2.symm, I3.symm, I4.symm, I5.symm])

theorem measure_inj_check : ∀ c d : Fin 24,
    Clifford.measureAxis (Clifford.ofFin c) .X = Clifford.measureAxis (Clifford.ofFin d) .X →
    Clifford.measureAxis (Clifford.ofFin c) .Z = Clifford.measureAxis (Clifford.ofFin d) .Z → c = d := by
  decide +kernel

/-- **C01** Two different members denote different gates, even up to a global phase: so
`C01_clifford_matmul` and `C01_clifford_conj` pin the results down uniquely. -/
theorem C01_distinct (c d : Clifford) (h : MatPhaseEq c.matrix d.matrix) : c = d := by
  obtain ⟨z, hz, h⟩ := h
  have hzz : star z * z = 1 := by
    rw [mul_comm, Complex.star_def, Complex.mul_conj, Complex.normSq_eq_norm_sq, hz]; simp
  have key : ∀ a, Clifford.measureAxis c a = Clifford.measureAxis d a := by
    intro a
    apply Pauli.matrix_injective
    rw [measureAxis_matrix, measureAxis_matrix, h]
    simp only [Matrix.conjTranspose_smul, Matrix.smul_mul, Matrix.mul_smul, smul_smul]
    rw [mul_comm, hzz, one_smul]
  exact measure_inj_check c d (key .X) (key .Z)

/-! ## C04 -/

theorem commute_step (g : Clifford)
    (hg : g = Clifford.I ∨ g = Clifford.H ∨ g = Clifford.S ∨ g = Clifford.Z) (d : Domains) :
    ∃ d', Clifford.commuteStep g d = some d' ∧ ∀ r : ℕ → Bool,
      MatPhaseEq (powB Ops.X (parity r d.s) * powB Ops.Z (parity r d.t) * g.matrix)
        (g.matrix * (powB Ops.X (parity r d'.s) * powB Ops.Z (parity r d'.t))) := by
  have ph1 : ∀ {U V : Mat2}, U = -V → MatPhaseEq U V := fun h => ⟨-1, by simp, by simp [h]⟩
  have phI : ∀ {U V : Mat2}, U = Complex.I • V → MatPhaseEq U V := fun h => ⟨Complex.I, by simp, h⟩
  have phI' : ∀ {U V : Mat2}, U = (-Complex.I) • V → MatPhaseEq U V := fun h => ⟨-Complex.I, by simp, h⟩
  rcases hg with rfl | rfl | rfl | rfl
  · refine ⟨d, by simp [Clifford.commuteStep], fun r => ?_⟩
    simp only [Clifford.matrix_I, mul_one, one_mul]; exact MatPhaseEq.refl _
  · refine ⟨⟨d.t, d.s⟩, rfl, fun r => ?_⟩
    simp only [Clifford.matrix_H]
    cases parity r d.s <;> cases parity r d.t
    · apply MatPhaseEq.of_eq; simp [powB]
    · apply MatPhaseEq.of_eq; simp [powB, Ops.X, Ops.Z, Ops.H, mat2_mul]
    · apply MatPhaseEq.of_eq; simp [powB, Ops.X, Ops.Z, Ops.H, mat2_mul]
    · apply ph1; simp [powB, Ops.X, Ops.Z, Ops.H, mat2_mul, mat2_smul, mat2_neg]
  · refine ⟨⟨d.s, symmDiff d.t d.s⟩, rfl, fun r => ?_⟩
    simp only [Clifford.matrix_S, parity_symmDiff]
    cases parity r d.s <;> cases parity r d.t
    · apply MatPhaseEq.of_eq; simp [powB]
    · apply MatPhaseEq.of_eq; simp [powB, Ops.Z, Ops.S, mat2_mul]
    · apply phI'; simp [powB, Ops.X, Ops.Z, Ops.S, mat2_mul, mat2_smul, mat2_neg]
    · apply phI'; simp [powB, Ops.X, Ops.Z, Ops.S, mat2_mul, mat2_smul, mat2_neg]
  · refine ⟨d, rfl, fun r => ?_⟩
    simp only [Clifford.matrix_Z]
    cases parity r d.s <;> cases parity r d.t
    · apply MatPhaseEq.of_eq; simp [powB]
    · apply MatPhaseEq.of_eq; simp [powB]
    · apply ph1; simp [powB, Ops.X, Ops.Z, mat2_mul, mat2_neg]
    · apply ph1; simp [powB, Ops.X, Ops.Z, mat2_mul, mat2_neg]

theorem commute_fold (l : List Clifford)
    (hl : ∀ g ∈ l, g = Clifford.I ∨ g = Clifford.H ∨ g = Clifford.S ∨ g = Clifford.Z) (d : Domains) :
    ∃ d', l.foldlM (fun d gate => Clifford.commuteStep gate d) d = some d' ∧ ∀ r : ℕ → Bool,
      MatPhaseEq (powB Ops.X (parity r d.s) * powB Ops.Z (parity r d.t) *
          matProd (l.map Clifford.matrix))
        (matProd (l.map Clifford.matrix) *
          (powB Ops.X (parity r d'.s) * powB Ops.Z (parity r d'.t))) := by
  induction l generalizing d with
  | nil => exact ⟨d, rfl, fun r => by
      simp only [List.map_nil, matProd, List.foldr_nil, mul_one, one_mul]; exact MatPhaseEq.refl _⟩
  | cons g l ih =>
    obtain ⟨d1, h1, h1'⟩ := commute_step g (hl g (by simp)) d
    obtain ⟨d2, h2, h2'⟩ := ih (fun x hx => hl x (by simp [hx])) d1
    refine ⟨d2, ?_, fun r => ?_⟩
    · rw [List.foldlM_cons, h1]; exact h2
    · have e : matProd ((g :: l).map Clifford.matrix) = g.matrix * matProd (l.map Clifford.matrix) := rfl
      rw [e]
      generalize matProd (l.map Clifford.matrix) = P at h2' ⊢
      rw [← Matrix.mul_assoc]
      refine ((h1' r).mul (MatPhaseEq.refl P)).trans ?_
      have h3 := (MatPhaseEq.refl g.matrix).mul (h2' r)
      simp only [Matrix.mul_assoc] at h3 ⊢
      exact h3

/-- **C04** `c.commute_domains(Domains(s, t))` never raises, and its result `Domains(s', t')`
satisfies the documented `X^s Z^t C = C X^s' Z^t'` up to a global phase, for every assignment `r` of
measurement outcomes (a domain contributes iff an odd number of its nodes have outcome 1). -/
theorem C04_commute_domains (c : Clifford) (d : Domains) :
    ∃ d', c.commuteDomains? d = some d' ∧ ∀ r : ℕ → Bool,
      MatPhaseEq (powB Ops.X (parity r d.s) * powB Ops.Z (parity r d.t) * c.matrix)
        (c.matrix * (powB Ops.X (parity r d'.s) * powB Ops.Z (parity r d'.t))) := by
  obtain ⟨d', h, h'⟩ := commute_fold c.hsz (C02_hsz_gates c) d
  refine ⟨d', h, fun r => ?_⟩
  have hp := C02_hsz c
  exact ((MatPhaseEq.refl _).mul hp.symm).trans ((h' r).trans (hp.mul (MatPhaseEq.refl _)))

/-- a non-trivial instance: through `H`, an X-domain `{1,2}` and Z-domain `{2}` are exchanged -/
example : (Clifford.H.commuteDomains? ⟨{1, 2}, {2}⟩) = some ⟨{2}, {1, 2}⟩ := rfl

end Graphix
