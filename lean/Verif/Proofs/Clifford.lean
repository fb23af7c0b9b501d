import Verif.Model.Clifford
import Mathlib.LinearAlgebra.Matrix.NonsingularInverse

/-! # Helper lemmas about the Clifford tables -/

namespace Graphix

namespace GI
def add (x y : GI) : GI := ⟨x.re + y.re, x.im + y.im⟩
def mul (x y : GI) : GI := ⟨x.re * y.re - x.im * y.im, x.re * y.im + x.im * y.re⟩
def conj (x : GI) : GI := ⟨x.re, -x.im⟩
def normSq (x : GI) : Int := x.re * x.re + x.im * x.im

theorem toC_add (x y : GI) : (x.add y).toC = x.toC + y.toC := by
  simp [toC, add]; ring

theorem toC_mul (x y : GI) : (x.mul y).toC = x.toC * y.toC := by
  simp only [toC, mul]; push_cast
  linear_combination (-(x.im * y.im : ℂ)) * Complex.I_mul_I

theorem toC_conj (x : GI) : x.conj.toC = star x.toC := by
  simp [toC, conj]

theorem norm_sq (x : GI) : ‖x.toC‖ ^ 2 = (x.normSq : ℝ) := by
  rw [← Complex.normSq_eq_norm_sq]
  simp [toC, normSq, Complex.normSq_apply]
end GI

namespace CMat

/-- numerator of the matrix product -/
def mul (m n : CMat) : CMat :=
  ⟨m.k + n.k, (m.a.mul n.a).add (m.b.mul n.c), (m.a.mul n.b).add (m.b.mul n.d),
    (m.c.mul n.a).add (m.d.mul n.c), (m.c.mul n.b).add (m.d.mul n.d)⟩

def adj (m : CMat) : CMat := ⟨m.k, m.a.conj, m.c.conj, m.b.conj, m.d.conj⟩

def scale (g : GI) (m : CMat) : CMat := ⟨m.k, g.mul m.a, g.mul m.b, g.mul m.c, g.mul m.d⟩

theorem toMat_mul (m n : CMat) : (m.mul n).toMat = m.toMat * n.toMat := by
  simp only [toMat, mul, GI.toC_add, GI.toC_mul, Matrix.smul_mul, Matrix.mul_smul, mat2_mul,
    smul_smul, pow_add, mul_comm ((1 / (Real.sqrt 2 : ℂ)) ^ m.k)]

theorem star_sqrt_half (k : ℕ) : star ((1 / (Real.sqrt 2 : ℂ)) ^ k) = (1 / (Real.sqrt 2 : ℂ)) ^ k := by
  simp

theorem toMat_adj (m : CMat) : m.adj.toMat = m.toMat.conjTranspose := by
  simp only [toMat, adj, GI.toC_conj, Matrix.conjTranspose_smul, mat2_conjTranspose,
    star_sqrt_half]

/-- the integer check that `m` equals `n` up to a unit phase: `h m = g n` with `h` a positive
integer, and the norms fit. -/
def PhaseCheck (m n : CMat) (g : GI) (h : ℕ) : Prop :=
  0 < h ∧ (⟨h, 0⟩ : GI).mul m.a = g.mul n.a ∧ (⟨h, 0⟩ : GI).mul m.b = g.mul n.b ∧
    (⟨h, 0⟩ : GI).mul m.c = g.mul n.c ∧ (⟨h, 0⟩ : GI).mul m.d = g.mul n.d ∧
    g.normSq * 2 ^ n.k = h ^ 2 * 2 ^ m.k

instance (m n : CMat) (g : GI) (h : ℕ) : Decidable (PhaseCheck m n g h) := by
  unfold PhaseCheck; infer_instance

theorem sqrt2_ne : (Real.sqrt 2 : ℂ) ≠ 0 := by
  rw [Complex.ofReal_ne_zero]; positivity

theorem phaseEq_of_check {m n : CMat} {g : GI} {h : ℕ} (hch : PhaseCheck m n g h) :
    MatPhaseEq m.toMat n.toMat := by
  obtain ⟨h0, ha, hb, hc, hd, hn⟩ := hch
  have hs := sqrt2_ne
  have hh : (h : ℂ) ≠ 0 := by exact_mod_cast h0.ne'
  have hh' : (h : ℝ) ≠ 0 := by exact_mod_cast h0.ne'
  have hC : ((⟨h, 0⟩ : GI)).toC = h := by simp [GI.toC]
  replace ha := congrArg GI.toC ha
  replace hb := congrArg GI.toC hb
  replace hc := congrArg GI.toC hc
  replace hd := congrArg GI.toC hd
  simp only [GI.toC_mul, hC] at ha hb hc hd
  refine ⟨(1 / (Real.sqrt 2 : ℂ)) ^ m.k * (Real.sqrt 2 : ℂ) ^ n.k * (g.toC / h), ?_, ?_⟩
  · have h2 : ‖(1 / (Real.sqrt 2 : ℂ)) ^ m.k * (Real.sqrt 2 : ℂ) ^ n.k * (g.toC / h)‖ ^ 2 = 1 := by
      have hsq : ‖(Real.sqrt 2 : ℂ)‖ ^ 2 = 2 := by simp
      have hn' : (g.normSq : ℝ) * 2 ^ n.k = h ^ 2 * 2 ^ m.k := by exact_mod_cast hn
      have hno : ‖(h : ℂ)‖ = h := by simp
      rw [norm_mul, norm_mul, norm_pow, norm_pow, norm_div, norm_div, norm_one, mul_pow, mul_pow,
        div_pow _ _ 2, GI.norm_sq, hno, ← pow_mul, ← pow_mul, mul_comm m.k, mul_comm n.k, pow_mul,
        pow_mul, div_pow, hsq, one_pow, div_pow, one_pow]
      have : (1 / 2 ^ m.k * 2 ^ n.k * ((g.normSq : ℝ) / h ^ 2)) =
        ((g.normSq : ℝ) * 2 ^ n.k) / (h ^ 2 * 2 ^ m.k) := by field_simp
      rw [this, hn', div_self]
      positivity
    have h3 := norm_nonneg ((1 / (Real.sqrt 2 : ℂ)) ^ m.k * (Real.sqrt 2 : ℂ) ^ n.k * (g.toC / h))
    nlinarith
  · have key : (Real.sqrt 2 : ℂ) ^ n.k * (1 / (Real.sqrt 2 : ℂ)) ^ n.k = 1 := by
      rw [← mul_pow, mul_one_div_cancel hs, one_pow]
    have ent : ∀ x y : ℂ, h * x = g.toC * y → (1 / (Real.sqrt 2 : ℂ)) ^ m.k * x =
        (1 / (Real.sqrt 2 : ℂ)) ^ m.k * (Real.sqrt 2 : ℂ) ^ n.k * (g.toC / h) *
          ((1 / (Real.sqrt 2 : ℂ)) ^ n.k * y) := by
      intro x y hxy
      have hx : x = g.toC / h * y := by field_simp; linear_combination hxy
      rw [hx]
      linear_combination (-((1 / (Real.sqrt 2 : ℂ)) ^ m.k * (g.toC / h) * y)) * key
    simp only [toMat, mat2_smul]
    congr 1 <;> apply ent <;> assumption

/-- exact equality check: `m = n` as matrices when `m.k = n.k + 2 r` and numerators scaled by `2^r` -/
theorem eq_of_check {m n : CMat} {r : ℕ} (hk : m.k = n.k + 2 * r)
    (h : m.a = (⟨2 ^ r, 0⟩ : GI).mul n.a ∧ m.b = (⟨2 ^ r, 0⟩ : GI).mul n.b ∧
      m.c = (⟨2 ^ r, 0⟩ : GI).mul n.c ∧ m.d = (⟨2 ^ r, 0⟩ : GI).mul n.d) : m.toMat = n.toMat := by
  obtain ⟨ha, hb, hc, hd⟩ := h
  have h2 : ((⟨2 ^ r, 0⟩ : GI)).toC = 2 ^ r := by simp [GI.toC]
  have hsq : (Real.sqrt 2 : ℂ) ^ 2 = 2 := by
    rw [← Complex.ofReal_pow, Real.sq_sqrt (by norm_num)]; norm_num
  have key : (1 / (Real.sqrt 2 : ℂ)) ^ m.k * 2 ^ r = (1 / (Real.sqrt 2 : ℂ)) ^ n.k := by
    rw [hk, pow_add, pow_mul, div_pow (1 : ℂ) _ 2, hsq, mul_assoc, ← mul_pow]; norm_num
  simp only [toMat, ha, hb, hc, hd, GI.toC_mul, mat2_smul, h2, ← mul_assoc, key]

end CMat

namespace Clifford

/-- Candidate phase: trace of `n† m`; to be divided by `2^(k+1)`. -/
def phaseGuess (m n : CMat) : GI :=
  ((n.a.conj.mul m.a).add (n.b.conj.mul m.b)).add ((n.c.conj.mul m.c).add (n.d.conj.mul m.d))

theorem mul_check : ∀ c d : Fin 24,
    CMat.PhaseCheck ((ofFin c).cmat.mul (ofFin d).cmat) (mul (ofFin c) (ofFin d)).cmat
      (phaseGuess ((ofFin c).cmat.mul (ofFin d).cmat) (mul (ofFin c) (ofFin d)).cmat)
      (2 ^ ((mul (ofFin c) (ofFin d)).cmat.k + 1)) := by
  decide +kernel

theorem conj_check : ∀ c : Fin 24,
    CMat.PhaseCheck (ofFin c).cmat.adj (conj (ofFin c)).cmat
      (phaseGuess (ofFin c).cmat.adj (conj (ofFin c)).cmat) (2 ^ ((conj (ofFin c)).cmat.k + 1)) := by
  decide +kernel

theorem unitary_check : ∀ c : Fin 24,
    ((ofFin c).cmat.mul (ofFin c).cmat.adj).k = 2 * (ofFin c).cmat.k ∧
    (ofFin c).cmat.mul (ofFin c).cmat.adj =
      ⟨2 * (ofFin c).cmat.k, ⟨2 ^ (ofFin c).cmat.k, 0⟩, ⟨0, 0⟩, ⟨0, 0⟩, ⟨2 ^ (ofFin c).cmat.k, 0⟩⟩ := by
  decide +kernel

theorem mul_matrix (c d : Clifford) : MatPhaseEq (c.matrix * d.matrix) (c.mul d).matrix := by
  have h := CMat.phaseEq_of_check (mul_check c d)
  rw [CMat.toMat_mul] at h
  exact h

theorem conj_matrix (c : Clifford) : MatPhaseEq c.matrix.conjTranspose c.conj.matrix := by
  have h := CMat.phaseEq_of_check (conj_check c)
  rw [CMat.toMat_adj] at h
  exact h

theorem matrix_unitary' (c : Clifford) : c.matrix * c.matrix.conjTranspose = 1 := by
  have h := unitary_check c
  have h1 : ((ofFin c).cmat.mul (ofFin c).cmat.adj).toMat =
      (⟨0, ⟨1, 0⟩, ⟨0, 0⟩, ⟨0, 0⟩, ⟨1, 0⟩⟩ : CMat).toMat := by
    apply CMat.eq_of_check (r := (ofFin c).cmat.k)
    · rw [h.1]; simp
    · rw [h.2]; simp [GI.mul]
  rw [CMat.toMat_mul, CMat.toMat_adj] at h1
  change (ofFin c).cmat.toMat * (ofFin c).cmat.toMat.conjTranspose = 1
  rw [h1]
  simp [CMat.toMat, GI.toC, mat2_one]

theorem matrix_unitary (c : Clifford) : c.matrix.conjTranspose * c.matrix = 1 :=
  mul_eq_one_comm.mp (matrix_unitary' c)

theorem matrix_I : I.matrix = 1 := by
  simp [matrix, cmat, I, ofFin, lookup, cliffordTable, CMat.toMat, GI.toC, mat2_one]
theorem matrix_X : X.matrix = Ops.X := by
  simp [matrix, cmat, X, ofFin, lookup, cliffordTable, CMat.toMat, GI.toC, Ops.X]
theorem matrix_Y : Y.matrix = Ops.Y := by
  simp [matrix, cmat, Y, ofFin, lookup, cliffordTable, CMat.toMat, GI.toC, Ops.Y]
theorem matrix_Z : Z.matrix = Ops.Z := by
  simp [matrix, cmat, Z, ofFin, lookup, cliffordTable, CMat.toMat, GI.toC, Ops.Z]
theorem matrix_S : S.matrix = Ops.S := by
  simp [matrix, cmat, S, ofFin, lookup, cliffordTable, CMat.toMat, GI.toC, Ops.S]
theorem matrix_SDG : SDG.matrix = Ops.SDG := by
  simp [matrix, cmat, SDG, ofFin, lookup, cliffordTable, CMat.toMat, GI.toC, Ops.SDG]
theorem matrix_H : H.matrix = Ops.H := by
  simp [matrix, cmat, H, ofFin, lookup, cliffordTable, CMat.toMat, GI.toC, Ops.H]

end Clifford

end Graphix
