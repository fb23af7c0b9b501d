import Verif.Model.Extract
import Verif.Proofs.Determinism
import Verif.Proofs.Pauli

/-! Lemmas for the circuit extraction: Hermitian Pauli strings on graph states, absorption in measurements. -/

namespace Graphix

open Function

/-- The Hermitian Pauli matrix with the given X and Z parts. -/
noncomputable def pmB (x z : Bool) : Mat2 :=
  match x, z with
  | false, false => 1
  | true, false => Ops.X
  | true, true => Ops.Y
  | false, true => Ops.Z

theorem pmB_eq (x z : Bool) : pmB x z = (if x && z then Complex.I else 1) • pauliXZ x z := by
  cases x <;> cases z <;> apply mat2_ext <;> simp [pmB, pauliXZ, powB, Ops.X, Ops.Y, Ops.Z, mul2_apply, mat2_one]

theorem pmB_mul_self (x z : Bool) : pmB x z * pmB x z = 1 := by
  cases x <;> cases z <;> apply mat2_ext <;> simp [pmB, Ops.X, Ops.Y, Ops.Z, mul2_apply, mat2_one]

theorem locOps_smul_fun (c : ℕ → ℂ) (F : ℕ → Mat2) (l : List ℕ) (ψ : QState) :
    locOps (fun n => c n • F n) l ψ = (l.map c).prod • locOps F l ψ := by
  induction l with
  | nil => simp [locOps]
  | cons a l ih =>
    simp only [locOps, List.map_cons, List.prod_cons]
    rw [ih, op1_smul]
    funext b
    simp only [op1, Pi.smul_apply, smul_eq_mul, Matrix.smul_apply]
    ring

theorem sgn_xorl (l : List ℕ) (s : ℕ → Bool) : sgn (xorl l s) = (l.map fun n => sgn (s n)).prod := by
  induction l with
  | nil => simp
  | cons a l ih => rw [xorl_cons, sgn_xor, ih]; simp

theorem locOps_sgn (s : ℕ → Bool) (F : ℕ → Mat2) (l : List ℕ) (ψ : QState) :
    locOps (fun n => sgn (s n) • F n) l ψ = sgn (xorl l s) • locOps F l ψ := by
  rw [locOps_smul_fun, sgn_xorl]

/-- The sign of the product of stabilizers: the edges inside the set, the pairs of `Y`. -/
def stabSign (es : List (ℕ × ℕ)) (l : List ℕ) (α : ℕ → Bool) : Bool :=
  Bool.xor (xorl es fun e => α e.1 && α e.2) (decide ((l.filter fun v => α v && oddp es α v).length / 2 % 2 = 1))

theorem prod_ite_I (l : List ℕ) (p : ℕ → Bool) : (l.map fun n => if p n then Complex.I else (1 : ℂ)).prod = Complex.I ^ (l.filter p).length := by
  induction l with
  | nil => simp
  | cons a l ih =>
    rw [List.map_cons, List.prod_cons, ih, List.filter_cons]
    cases p a
    · simp
    · simp [pow_succ, mul_comm]

/-- The Pauli string with `X` on the nodes `α` and `Z` on their odd neighbourhood, on a graph state with arbitrary input. -/
theorem stab_flip {es : List (ℕ × ℕ)} {l : List ℕ} (hl : l.Nodup) (he : ∀ e ∈ es, e.1 ∈ l ∧ e.2 ∈ l) (α : ℕ → Bool) (φ : QState) :
    locOps (fun n => pmB (α n) (oddp es α n)) l (czList es φ) =
      sgn (stabSign es l α) • czList es fun b => φ (flipOn l α b) := by
  have heven : xorl l (fun v => oddp es α v && α v) = false := by
    rw [← cross_eq hl he α α]
    rw [xorl_congr (g := fun _ => false), xorl_false]
    intro e _
    simp
  obtain ⟨k, hk⟩ : ∃ k, (l.filter fun v => α v && oddp es α v).length = 2 * k := by
    rw [xorl_filter_length, decide_eq_false_iff_not, Nat.not_odd_iff_even] at heven
    obtain ⟨k, hk⟩ := heven
    refine ⟨k, ?_⟩
    rw [show (fun v => α v && oddp es α v) = fun v => oddp es α v && α v by funext v; exact Bool.and_comm _ _, hk]; ring
  have hI : (l.map fun n => if α n && oddp es α n then Complex.I else (1 : ℂ)).prod = sgn (decide (k % 2 = 1)) := by
    rw [prod_ite_I, hk, pow_mul, Complex.I_sq]
    rcases Nat.even_or_odd k with h | h
    · rw [h.neg_one_pow]; simp [Nat.even_iff.1 h]
    · rw [h.neg_one_pow]; simp [Nat.odd_iff.1 h]
  have h1 : locOps (fun n => pmB (α n) (oddp es α n)) l (czList es φ) =
      sgn (decide (k % 2 = 1)) • locOps (fun n => pauliXZ (α n) (oddp es α n)) l (czList es φ) := by
    simp only [pmB_eq]
    rw [locOps_smul_fun, hI]
  rw [h1]
  unfold stabSign
  rw [hk, Nat.mul_div_cancel_left _ (by norm_num : 0 < 2), sgn_xor]
  funext b
  simp only [Pi.smul_apply, smul_eq_mul]
  rw [locOps_pauli _ _ hl, czList_apply, czList_apply]
  have hf : ∀ n ∈ l, flipOn l α b n = Bool.xor (b n) (α n) := fun n hn => by simp [flipOn, hn]
  have h2 : (xorl es fun e => flipOn l α b e.1 && flipOn l α b e.2) =
      Bool.xor (Bool.xor (xorl es fun e => b e.1 && b e.2) (xorl es fun e => α e.1 && α e.2))
        (xorl l fun v => oddp es α v && b v) := by
    rw [← cross_eq hl he α b, ← xorl_xor, ← xorl_xor]
    apply xorl_congr
    intro e hm
    rw [hf _ (he e hm).1, hf _ (he e hm).2]
    cases b e.1 <;> cases b e.2 <;> cases α e.1 <;> cases α e.2 <;> rfl
  have h3 : (xorl l fun n => oddp es α n && Bool.xor (b n) (α n)) = xorl l fun v => oddp es α v && b v := by
    rw [show (xorl l fun v => oddp es α v && b v) =
      Bool.xor (xorl l fun v => oddp es α v && b v) (xorl l fun v => oddp es α v && α v) by rw [heven]; simp, ← xorl_xor]
    apply xorl_congr
    intro n _
    cases oddp es α n <;> cases b n <;> cases α n <;> rfl
  rw [h2, h3, sgn_xor, sgn_xor]
  have h4 : sgn (xorl l fun v => oddp es α v && b v) * sgn (xorl l fun v => oddp es α v && b v) = 1 := by
    cases (xorl l fun v => oddp es α v && b v) <;> simp
  linear_combination (sgn (decide (k % 2 = 1)) * sgn (xorl es fun e => α e.1 && α e.2) *
    sgn (xorl es fun e => b e.1 && b e.2) * φ (flipOn l α b)) * h4

/-- Move a product of Pauli matrices through the measurements: absorbed on the measured nodes outside `U`, kept on the
outputs. -/
theorem absorb {l : List ℕ} (hl : l.Nodup) (O U : ℕ → Prop) [DecidablePred O] [DecidablePred U] (hOU : ∀ w, O w → ¬ U w) (B P : ℕ → Mat2) (s : ℕ → Bool)
    (hP : ∀ w, P w * P w = 1) (hO : ∀ w ∈ l, O w → B w = 1) (hM : ∀ w ∈ l, ¬ O w → ¬ U w → B w * P w = sgn (s w) • B w) (χ : QState) :
    locOps (fun w => if U w then B w * P w else B w) l χ =
      sgn (xorl l fun w => (decide (¬ O w ∧ ¬ U w)) && s w) • locOps (fun w => if O w then P w else 1) l (locOps B l (locOps P l χ)) := by
  rw [locOps_mul _ _ hl, locOps_mul _ _ hl]
  simp only [Matrix.mul_assoc]
  have : locOps (fun w => (if O w then P w else 1) * (B w * P w)) l χ =
      locOps (fun w => sgn (decide (¬ O w ∧ ¬ U w) && s w) • (if U w then B w * P w else B w)) l χ := by
    apply locOps_congr
    intro w hw
    by_cases hu : U w
    · have : ¬ O w := fun h => hOU w h hu
      simp [hu, this]
    · by_cases ho : O w
      · simp [ho, hu, hO w hw ho, hP w]
      · simp [ho, hu, hM w hw ho hu]
  rw [this, locOps_sgn, smul_smul, ← sgn_xor]
  simp

theorem bra_observable (m : Measurement) : bra (measVec m false) * observable m = bra (measVec m false) := by
  have h1 : bra (measVec m false) * outer (measVec m false) = bra (measVec m false) := by
    have hu := measVec_unit m false
    unfold UnitVec at hu
    funext i j
    rw [mul2_apply]
    simp only [bra, outer]
    linear_combination (star (measVec m false j)) * hu
  rw [outer_measVec, measureOperator_eq] at h1
  simp only [Bool.false_eq_true, if_false, one_smul, Matrix.mul_smul, Matrix.mul_add, Matrix.mul_one, smul_add] at h1
  have h2 : (1 / 2 : ℂ) • (bra (measVec m false) * observable m) = (1 / 2 : ℂ) • bra (measVec m false) := by
    have h3 : (1 / 2 : ℂ) • bra (measVec m false) + (1 / 2 : ℂ) • bra (measVec m false) = bra (measVec m false) := by
      rw [← add_smul]; norm_num
    have h4 := h1.trans h3.symm
    exact add_left_cancel h4
  have h3 := congrArg (fun A => (2 : ℂ) • A) h2
  simpa [smul_smul] using h3

/-- The measurement with the angle of a Bloch measurement replaced by 0. -/
noncomputable def Measurement.zeroed : Measurement → Measurement
  | .bloch m => .bloch ⟨0, m.plane⟩
  | .pauli m => .pauli m

/-- The Pauli matrices that a focused correction can have on another measured node. -/
def FocusedBits (l : Label) (x z : Bool) : Prop :=
  (x = true → l = .plane .XY ∨ l = .axis .X ∨ l = .axis .Y) ∧
  (z = true → l = .plane .XZ ∨ l = .plane .YZ ∨ l = .axis .Y ∨ l = .axis .Z) ∧ (l = .axis .Y → x = z)

/-- The measurement is a Pauli measurement with a negative sign. -/
def Measurement.isNeg : Measurement → Bool
  | .pauli m => decide (m.sign = .minus)
  | .bloch _ => false

theorem bra_absorb {m : Measurement} {x z : Bool} (h : FocusedBits m.toPlaneOrAxis x z) :
    bra (measVec m.zeroed false) * pmB x z = sgn ((x || z) && m.isNeg) • bra (measVec m.zeroed false) := by
  have h0 := bra_observable m.zeroed
  obtain ⟨hx, hz, hxz⟩ := h
  cases m with
  | bloch m =>
    obtain ⟨θ, p⟩ := m
    cases p <;> cases x <;> cases z <;>
      simp [Measurement.toPlaneOrAxis, pmB, Measurement.isNeg, Measurement.zeroed, observable, planeObservable, Plane.cos, Plane.sin, Ops.fromAxis] at * <;>
      exact h0
  | pauli m =>
    obtain ⟨a, s⟩ := m
    cases a <;> cases s <;> cases x <;> cases z <;>
      simp [Measurement.toPlaneOrAxis, pmB, Measurement.isNeg, Measurement.zeroed, observable, Ops.fromAxis, Sign.toComplex, Sign.toInt] at * <;>
      first | exact h0 | exact neg_eq_iff_eq_neg.1 h0

/-- The Pauli matrix that a flow has on its own node, for a planar measurement. -/
def planeX : Plane → Bool
  | .XY => false
  | .XZ => true
  | .YZ => true

def planeZ : Plane → Bool
  | .XY => true
  | .XZ => true
  | .YZ => false

theorem bra_exp (α : ℝ) (p : Plane) : MatPhaseEq (bra (measVec (.bloch ⟨α, p⟩) false))
    ((Real.cos (α / 2 * Real.pi) : ℂ) • bra (measVec (.bloch ⟨0, p⟩) false) +
      (Complex.I * Real.sin (α / 2 * Real.pi)) • sgn (decide (p = .YZ)) •
        (bra (measVec (.bloch ⟨0, p⟩) false) * pmB (planeX p) (planeZ p))) := by
  have e0 : α / 2 * Real.pi = α * Real.pi / 2 := by ring
  cases p
  · refine ⟨Complex.exp (-(Complex.I * (α * Real.pi / 2 : ℝ))), by rw [Complex.norm_exp]; simp, ?_⟩
    have h1 : Complex.exp (-(Complex.I * (α * Real.pi / 2 : ℝ))) = Real.cos (α * Real.pi / 2) - Real.sin (α * Real.pi / 2) * Complex.I := by
      rw [show -(Complex.I * ((α * Real.pi / 2 : ℝ) : ℂ)) = ((-(α * Real.pi / 2) : ℝ) : ℂ) * Complex.I by push_cast; ring,
        Complex.exp_mul_I, ← Complex.ofReal_cos, ← Complex.ofReal_sin, Real.cos_neg, Real.sin_neg]; push_cast; ring
    have h2 : Complex.exp (-(Complex.I * (α * Real.pi : ℝ))) =
        Complex.exp (-(Complex.I * (α * Real.pi / 2 : ℝ))) * Complex.exp (-(Complex.I * (α * Real.pi / 2 : ℝ))) := by
      rw [← Complex.exp_add]; congr 1; push_cast; ring
    have hI := Complex.I_mul_I
    have hcs : (Real.cos (α * Real.pi / 2) : ℂ) ^ 2 + (Real.sin (α * Real.pi / 2) : ℂ) ^ 2 = 1 := by
      rw [← Complex.ofReal_pow, ← Complex.ofReal_pow, ← Complex.ofReal_add, Real.cos_sq_add_sin_sq]; simp
    have h3 : star (Complex.exp (Complex.I * (α * Real.pi : ℝ))) = Complex.exp (-(Complex.I * (α * Real.pi : ℝ))) := by
      rw [Complex.star_def, ← Complex.exp_conj]; simp
    rw [e0]
    apply mat2_ext <;>
      simp only [bra, measVec, Measurement.toBloch, planarState, pmB, planeX, planeZ, mul2_apply, Ops.Z, Matrix.smul_apply, Matrix.add_apply, smul_eq_mul,
        mat2_ff, mat2_ft, mat2_tf, mat2_tt, if_true, Bool.false_eq_true, if_false, add_zero, star_div₀, h3, h2, h1, sgn] <;>
      simp [-Complex.ofReal_cos, -Complex.ofReal_sin, -Complex.ofReal_mul, -Complex.ofReal_div] <;>
      field_simp
    all_goals first | linear_combination (-1) * hcs - (Real.sin (α * Real.pi / 2) : ℂ) ^ 2 * hI * (-1) | ring
  · refine ⟨1, by simp, ?_⟩
    rw [e0]
    apply mat2_ext <;>
      simp [bra, measVec, Measurement.toBloch, planarState, pmB, planeX, planeZ, mul2_apply, Ops.X,
       -Complex.ofReal_cos, -Complex.ofReal_sin, -Complex.ofReal_mul, -Complex.ofReal_div]
  · refine ⟨1, by simp, ?_⟩
    rw [e0]
    apply mat2_ext <;>
      simp [bra, measVec, Measurement.toBloch, planarState, pmB, planeX, planeZ, mul2_apply, Ops.Y,
       -Complex.ofReal_cos, -Complex.ofReal_sin, -Complex.ofReal_mul, -Complex.ofReal_div]
    all_goals linear_combination (Real.sin (α * Real.pi / 2) : ℂ) * Complex.I_mul_I

end Graphix
