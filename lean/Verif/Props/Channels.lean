import Verif.Model.Channels
import Verif.Proofs.Clifford
import Mathlib.Tactic.Ring
import Mathlib.Tactic.LinearCombination
import Mathlib.Tactic.Linarith

/-!
# C43: noise channels
-/

namespace Graphix

open scoped Kronecker

variable {ι : Type} [Fintype ι] [DecidableEq ι]

/-- Action of a channel on a density matrix (specification): `Σ K ρ K†`. -/
noncomputable def KrausChannel.act (ch : KrausChannel ι) (ρ : Matrix ι ι ℂ) : Matrix ι ι ℂ :=
  (ch.data.map fun k => k.mat * ρ * k.mat.conjTranspose).sum

/-- The completeness relation (trace preservation). -/
def KrausChannel.Complete (ch : KrausChannel ι) : Prop :=
  (ch.data.map fun k => k.mat.conjTranspose * k.mat).sum = 1

theorem make_ok {n : ℕ} {data : List (KrausData ι)} (h1 : data ≠ []) (h2 : data.length ≤ 4 ^ n)
    (h3 : KrausChannel.work data = 1) : KrausChannel.make n data = .ok ⟨data⟩ := by
  unfold KrausChannel.make
  rw [if_neg h1, if_neg (not_lt.2 h2), if_neg (not_not.2 h3)]

/-- **C43** Every channel that can be constructed is trace preserving. -/
theorem C43_constructed_complete (n : ℕ) (data : List (KrausData ι)) (ch : KrausChannel ι)
    (h : KrausChannel.make n data = .ok ch) : ch.Complete ∧ ∀ ρ, (ch.act ρ).trace = ρ.trace := by
  unfold KrausChannel.make at h
  split at h
  · cases h
  split at h
  · cases h
  split at h
  · cases h
  rename_i hw
  obtain rfl := Except.ok.inj h
  have hw := not_not.1 hw
  refine ⟨hw, fun ρ => ?_⟩
  have : ∀ l : List (KrausData ι), ((l.map fun k : KrausData ι => k.mat * ρ * k.mat.conjTranspose).sum).trace =
      ((l.map fun k : KrausData ι => k.mat.conjTranspose * k.mat).sum * ρ).trace := by
    intro l
    induction l with
    | nil => simp
    | cons k l ih =>
      rw [List.map_cons, List.sum_cons, List.map_cons, List.sum_cons, Matrix.trace_add, ih, Matrix.add_mul,
        Matrix.trace_add, Matrix.trace_mul_comm, Matrix.mul_assoc]
  show ((data.map fun k : KrausData ι => k.mat * ρ * k.mat.conjTranspose).sum).trace = _
  rw [this]
  unfold KrausChannel.work at hw
  rw [hw, Matrix.one_mul]

/-- Hermitian and unitary. -/
def PauliLike (P : Matrix ι ι ℂ) : Prop := P.conjTranspose = P ∧ P * P = 1

theorem PauliLike.kron {κ : Type} [Fintype κ] [DecidableEq κ] {P : Matrix ι ι ℂ} {Q : Matrix κ κ ℂ} (hP : PauliLike P)
    (hQ : PauliLike Q) : PauliLike (P ⊗ₖ Q) := by
  constructor
  · rw [Matrix.conjTranspose_kronecker, hP.1, hQ.1]
  · rw [← Matrix.mul_kronecker_mul, hP.2, hQ.2, Matrix.one_kronecker_one]

theorem pauliLike_I : PauliLike Ops.I := by
  constructor
  · simp [Ops.I, mat2_conjTranspose]
  · simp [Ops.I, mat2_mul, mat2_one]
theorem pauliLike_X : PauliLike Ops.X := by
  constructor
  · simp [Ops.X, mat2_conjTranspose]
  · simp [Ops.X, mat2_mul, mat2_one]
theorem pauliLike_Y : PauliLike Ops.Y := by
  constructor
  · simp [Ops.Y, mat2_conjTranspose]
  · simp [Ops.Y, mat2_mul, mat2_one]
theorem pauliLike_Z : PauliLike Ops.Z := by
  constructor
  · simp [Ops.Z, mat2_conjTranspose]
  · simp [Ops.Z, mat2_mul, mat2_one]

theorem pauliLike_ixyz (P : IXYZ) : PauliLike (Ops.fromIxyz P) := by
  rcases P with _ | a
  · exact pauliLike_I
  · cases a
    · exact pauliLike_X
    · exact pauliLike_Y
    · exact pauliLike_Z

/-- A Kraus operator `√w P` with `P` a Pauli: it contributes `w` to the completeness relation and `w P ρ P` to
the channel. -/
theorem pauli_kraus {c : ℂ} {w : ℝ} {P : Matrix ι ι ℂ} (hc : c * star c = w) (hP : PauliLike P) :
    (KrausData.mat ⟨c, P⟩).conjTranspose * KrausData.mat ⟨c, P⟩ = (w : ℂ) • 1 ∧
    ∀ ρ, KrausData.mat ⟨c, P⟩ * ρ * (KrausData.mat ⟨c, P⟩).conjTranspose = (w : ℂ) • (P * ρ * P) := by
  have hc' : star c * c = w := by rw [mul_comm]; exact hc
  constructor
  · simp only [KrausData.mat, Matrix.conjTranspose_smul, hP.1, Matrix.smul_mul, Matrix.mul_smul, smul_smul, hP.2]
    rw [← hc]
  · intro ρ
    simp only [KrausData.mat, Matrix.conjTranspose_smul, hP.1, Matrix.smul_mul, Matrix.mul_smul, smul_smul]
    rw [← hc]
    congr 1; ring

theorem csqrt_sq {x : ℝ} (h : 0 ≤ x) : csqrt x * star (csqrt x) = x := by
  unfold csqrt
  rw [Complex.star_def, Complex.conj_ofReal, ← Complex.ofReal_mul, Real.mul_self_sqrt h]

/-- **C43** `dephasing_channel`: `(1-p) ρ + p Z ρ Z`. -/
theorem C43_dephasing (p : ℝ) (h0 : 0 ≤ p) (h1 : p ≤ 1) :
    ∃ ch, dephasingChannel p = .ok ch ∧ ch.Complete ∧
      ∀ ρ, ch.act ρ = ((1 - p : ℝ) : ℂ) • ρ + (p : ℂ) • (Ops.Z * ρ * Ops.Z) := by
  obtain ⟨a1, a2⟩ := pauli_kraus (csqrt_sq (by linarith : 0 ≤ 1 - p)) pauliLike_I
  obtain ⟨b1, b2⟩ := pauli_kraus (csqrt_sq h0) pauliLike_Z
  have hok : dephasingChannel p = .ok _ := make_ok (by simp) (by simp) (by
    simp only [KrausChannel.work, List.map_cons, List.map_nil, List.sum_cons, List.sum_nil, add_zero, a1, b1, ← add_smul]
    rw [← Complex.ofReal_add]; norm_num)
  refine ⟨_, hok, (C43_constructed_complete _ _ _ hok).1, fun ρ => ?_⟩
  simp only [KrausChannel.act, List.map_cons, List.map_nil, List.sum_cons, List.sum_nil, add_zero, a2, b2]
  simp [Ops.I, ← mat2_one]

theorem pauli_twirl (ρ : Mat2) : Ops.X * ρ * Ops.X + Ops.Y * ρ * Ops.Y + Ops.Z * ρ * Ops.Z =
    (2 * ρ.trace) • (1 : Mat2) - ρ := by
  have hρ : ρ = mat2 (ρ false false) (ρ false true) (ρ true false) (ρ true true) := by
    ext i j; cases i <;> cases j <;> rfl
  have htr : ρ.trace = ρ false false + ρ true true := by
    simp [Matrix.trace, add_comm]
  rw [htr]
  conv_lhs => rw [hρ]
  ext i j
  cases i <;> cases j <;>
    simp [Ops.X, Ops.Y, Ops.Z, mat2_mul, mat2, Matrix.one_apply] <;>
    ring_nf <;> simp [Complex.I_sq] <;> ring

/-- **C43** `depolarising_channel`: `(1-p) ρ + p/3 (XρX + YρY + ZρZ) = (1 - 4p/3) ρ + 4p/3 · tr(ρ) 1/2`. -/
theorem C43_depolarising (p : ℝ) (h0 : 0 ≤ p) (h1 : p ≤ 1) :
    ∃ ch, depolarisingChannel p = .ok ch ∧ ch.Complete ∧ ∀ ρ,
      ch.act ρ = ((1 - p : ℝ) : ℂ) • ρ + ((p / 3 : ℝ) : ℂ) •
        (Ops.X * ρ * Ops.X + Ops.Y * ρ * Ops.Y + Ops.Z * ρ * Ops.Z) ∧
      ch.act ρ = ((1 - 4 * (p / 3) : ℝ) : ℂ) • ρ + ((4 * (p / 3) : ℝ) : ℂ) • (ρ.trace / 2) • (1 : Mat2) := by
  have h3 : (0 : ℝ) ≤ p / 3 := by linarith
  obtain ⟨a1, a2⟩ := pauli_kraus (csqrt_sq (by linarith : 0 ≤ 1 - p)) pauliLike_I
  obtain ⟨b1, b2⟩ := pauli_kraus (csqrt_sq h3) pauliLike_X
  obtain ⟨c1, c2⟩ := pauli_kraus (csqrt_sq h3) pauliLike_Y
  obtain ⟨d1, d2⟩ := pauli_kraus (csqrt_sq h3) pauliLike_Z
  have hok : depolarisingChannel p = .ok _ := make_ok (by simp) (by simp) (by
    simp only [KrausChannel.work, List.map_cons, List.map_nil, List.sum_cons, List.sum_nil, add_zero, a1, b1, c1, d1,
      ← add_smul]
    rw [← Complex.ofReal_add, ← Complex.ofReal_add, ← Complex.ofReal_add]
    have : (1 - p + (p / 3 + (p / 3 + p / 3)) : ℝ) = 1 := by ring
    rw [this]; simp)
  have hact : ∀ ρ, (KrausChannel.mk [⟨csqrt (1 - p), Ops.I⟩, ⟨csqrt (p / 3), Ops.X⟩, ⟨csqrt (p / 3), Ops.Y⟩,
    ⟨csqrt (p / 3), Ops.Z⟩]).act ρ = ((1 - p : ℝ) : ℂ) • ρ + ((p / 3 : ℝ) : ℂ) •
        (Ops.X * ρ * Ops.X + Ops.Y * ρ * Ops.Y + Ops.Z * ρ * Ops.Z) := by
    intro ρ
    simp only [KrausChannel.act, List.map_cons, List.map_nil, List.sum_cons, List.sum_nil, add_zero, a2, b2, c2, d2,
      smul_add]
    simp [Ops.I, ← mat2_one, add_assoc]
  refine ⟨_, hok, (C43_constructed_complete _ _ _ hok).1, fun ρ => ⟨hact ρ, ?_⟩⟩
  rw [hact, pauli_twirl]
  ext i j
  simp only [Matrix.add_apply, Matrix.smul_apply, Matrix.sub_apply, smul_eq_mul]
  push_cast
  ring

/-- **C43** (negation) `pauli_channel`, for probabilities with sum at most 1: the constructor raises `ValueError`
unless the sum is 3/4. -/
theorem C43_pauli_channel_raises (px py pz : ℝ) (hx : 0 ≤ px) (hy : 0 ≤ py) (hz : 0 ≤ pz) (hs : px + py + pz ≠ 3 / 4) :
    pauliChannel px py pz = .error .valueError := by
  unfold pauliChannel
  split
  · rfl
  have hx' : (0 : ℝ) ≤ px / 3 := by linarith
  have hy' : (0 : ℝ) ≤ py / 3 := by linarith
  have hz' : (0 : ℝ) ≤ pz / 3 := by linarith
  obtain ⟨a1, a2⟩ := pauli_kraus (csqrt_sq (by linarith : 0 ≤ 1 - (1 - px - py - pz))) pauliLike_I
  obtain ⟨b1, b2⟩ := pauli_kraus (csqrt_sq hx') pauliLike_X
  obtain ⟨c1, c2⟩ := pauli_kraus (csqrt_sq hy') pauliLike_Y
  obtain ⟨d1, d2⟩ := pauli_kraus (csqrt_sq hz') pauliLike_Z
  simp only []
  unfold KrausChannel.make
  rw [if_neg (by simp), if_neg (by simp), if_pos]
  simp only [KrausChannel.work, List.map_cons, List.map_nil, List.sum_cons, List.sum_nil, add_zero, a1, b1, c1, d1,
      ← add_smul]
  intro h
  have := congrFun (congrFun h false) false
  simp only [Matrix.smul_apply, Matrix.one_apply_eq, smul_eq_mul, mul_one] at this
  rw [← Complex.ofReal_add, ← Complex.ofReal_add, ← Complex.ofReal_add] at this
  have h2 : (1 - (1 - px - py - pz) + (px / 3 + (py / 3 + pz / 3)) : ℝ) = 1 := by
    exact_mod_cast this
  apply hs
  linarith

/-- **C43** (negation) And when the sum is 3/4, the channel built is not the documented one: for
`pauli_channel(3/4, 0, 0)` the two disagree on `|0⟩⟨0|`. -/
theorem C43_pauli_channel_wrong : ∃ ch, pauliChannel (3 / 4) 0 0 = .ok ch ∧
    ch.act (mat2 1 0 0 0) ≠ ((1 - 3 / 4 : ℝ) : ℂ) • mat2 1 0 0 0 + ((3 / 4 : ℝ) : ℂ) • (Ops.X * mat2 1 0 0 0 * Ops.X) := by
  obtain ⟨a1, a2⟩ := pauli_kraus (csqrt_sq (by norm_num : (0 : ℝ) ≤ 1 - (1 - 3 / 4 - 0 - 0))) pauliLike_I
  obtain ⟨b1, b2⟩ := pauli_kraus (csqrt_sq (by norm_num : (0 : ℝ) ≤ 3 / 4 / 3)) pauliLike_X
  obtain ⟨c1, c2⟩ := pauli_kraus (csqrt_sq (by norm_num : (0 : ℝ) ≤ 0 / 3)) pauliLike_Y
  obtain ⟨d1, d2⟩ := pauli_kraus (csqrt_sq (by norm_num : (0 : ℝ) ≤ 0 / 3)) pauliLike_Z
  unfold pauliChannel
  rw [if_neg (by norm_num)]
  refine ⟨_, make_ok (by simp) (by simp) ?_, ?_⟩
  · simp only [KrausChannel.work, List.map_cons, List.map_nil, List.sum_cons, List.sum_nil, add_zero, a1, b1, c1, d1,
      ← add_smul]
    norm_num
  · simp only [KrausChannel.act, List.map_cons, List.map_nil, List.sum_cons, List.sum_nil, add_zero, a2, b2, c2, d2]
    intro h
    have := congrFun (congrFun h false) false
    simp [Ops.I, Ops.X, Ops.Y, Ops.Z, mat2_mul, mat2] at this
    norm_num at this

/-- The fifteen non-identity two-qubit Paulis. -/
def twoQubitPaulis : Finset (IXYZ × IXYZ) := Finset.univ.filter (· ≠ (.I, .I))

theorem sum_univ_ixyz {M : Type} [AddCommMonoid M] (f : IXYZ → M) :
    ∑ P : IXYZ, f P = f .I + (f (.axis .X) + (f (.axis .Y) + f (.axis .Z))) := by
  have : (Finset.univ : Finset IXYZ) = {.I, .axis .X, .axis .Y, .axis .Z} := by decide
  rw [this, Finset.sum_insert (by decide), Finset.sum_insert (by decide), Finset.sum_insert (by decide),
    Finset.sum_singleton]

theorem sum_two_qubit {M : Type} [AddCommGroup M] (f : IXYZ × IXYZ → M) :
    ∑ P ∈ twoQubitPaulis, f P = ∑ P : IXYZ, ∑ Q : IXYZ, f (P, Q) - f (.I, .I) := by
  rw [← Finset.sum_product' (f := fun P Q => f (P, Q)), Finset.univ_product_univ]
  unfold twoQubitPaulis
  rw [Finset.filter_ne' Finset.univ, Finset.sum_erase_eq_sub (Finset.mem_univ _)]

/-- **C43** `two_qubit_depolarising_channel`: `(1-p) ρ + p/15 Σ P ρ P` over the fifteen non-identity two-qubit
Paulis. -/
theorem C43_two_qubit_depolarising (p : ℝ) (h0 : 0 ≤ p) (h1 : p ≤ 1) :
    ∃ ch, twoQubitDepolarisingChannel p = .ok ch ∧ ch.Complete ∧ ∀ ρ,
      ch.act ρ = ((1 - p : ℝ) : ℂ) • ρ + ((p / 15 : ℝ) : ℂ) • ∑ P ∈ twoQubitPaulis,
        (Ops.fromIxyz P.1 ⊗ₖ Ops.fromIxyz P.2) * ρ * (Ops.fromIxyz P.1 ⊗ₖ Ops.fromIxyz P.2) := by
  have h15 : (0 : ℝ) ≤ p / 15 := by linarith
  have ha := pauli_kraus (csqrt_sq (by linarith : 0 ≤ 1 - p)) (pauliLike_I.kron pauliLike_I)
  have hb := fun P Q : IXYZ => pauli_kraus (csqrt_sq h15) ((pauliLike_ixyz P).kron (pauliLike_ixyz Q))
  have b1 := fun P Q => (hb P Q).1
  have b2 := fun P Q ρ => (hb P Q).2 ρ
  have eI : Ops.I = Ops.fromIxyz .I := rfl
  have eX : Ops.X = Ops.fromIxyz (.axis .X) := rfl
  have eY : Ops.Y = Ops.fromIxyz (.axis .Y) := rfl
  have eZ : Ops.Z = Ops.fromIxyz (.axis .Z) := rfl
  have hid : Ops.I ⊗ₖ Ops.I = (1 : Matrix (Bool × Bool) (Bool × Bool) ℂ) := by
    simp [Ops.I, ← mat2_one]
  have hok : twoQubitDepolarisingChannel p = .ok _ := make_ok (by simp) (by simp) (by
    simp only [KrausChannel.work, List.map_cons, List.map_nil, List.sum_cons, List.sum_nil, add_zero, ha.1]
    simp only [eI, eX, eY, eZ, b1, ← add_smul]
    have : ((1 - p : ℝ) : ℂ) + (((p / 15 : ℝ) : ℂ) + (((p / 15 : ℝ) : ℂ) + (((p / 15 : ℝ) : ℂ) + (((p / 15 : ℝ) : ℂ) +
      (((p / 15 : ℝ) : ℂ) + (((p / 15 : ℝ) : ℂ) + (((p / 15 : ℝ) : ℂ) + (((p / 15 : ℝ) : ℂ) + (((p / 15 : ℝ) : ℂ) +
      (((p / 15 : ℝ) : ℂ) + (((p / 15 : ℝ) : ℂ) + (((p / 15 : ℝ) : ℂ) + (((p / 15 : ℝ) : ℂ) + (((p / 15 : ℝ) : ℂ) +
      ((p / 15 : ℝ) : ℂ))))))))))))))) = 1 := by push_cast; ring
    rw [this, one_smul])
  refine ⟨_, hok, (C43_constructed_complete _ _ _ hok).1, fun ρ => ?_⟩
  rw [sum_two_qubit, sum_univ_ixyz]
  simp only [sum_univ_ixyz]
  simp only [KrausChannel.act, List.map_cons, List.map_nil, List.sum_cons, List.sum_nil, add_zero, ha.2]
  simp only [eI, eX, eY, eZ, b2, smul_add, smul_sub]
  simp only [← eI, hid, Matrix.one_mul, Matrix.mul_one]
  abel

/-- Weight of a Pauli in the single-qubit depolarising channel. -/
noncomputable def depolarisingWeight (p : ℝ) : IXYZ → ℝ
  | .I => 1 - p
  | .axis _ => p / 3

/-- **C43** `two_qubit_depolarising_tensor_channel` is the tensor product of two depolarising channels. -/
theorem C43_two_qubit_depolarising_tensor (p : ℝ) (h0 : 0 ≤ p) (h1 : p ≤ 1) :
    ∃ ch, twoQubitDepolarisingTensorChannel p = .ok ch ∧ ch.Complete ∧ ∀ ρ,
      ch.act ρ = ∑ P : IXYZ, ∑ Q : IXYZ, ((depolarisingWeight p P * depolarisingWeight p Q : ℝ) : ℂ) •
        ((Ops.fromIxyz P ⊗ₖ Ops.fromIxyz Q) * ρ * (Ops.fromIxyz P ⊗ₖ Ops.fromIxyz Q)) := by
  have h3 : (0 : ℝ) ≤ p / 3 := by linarith
  have h4 : (0 : ℝ) ≤ 1 - p := by linarith
  have hself : ∀ x : ℝ, (x : ℂ) * star (x : ℂ) = ((x * x : ℝ) : ℂ) := by
    intro x; rw [Complex.star_def, Complex.conj_ofReal]; push_cast; ring
  have hc : (csqrt (1 - p) * csqrt (p / 3)) * star (csqrt (1 - p) * csqrt (p / 3)) = (((1 - p) * (p / 3) : ℝ) : ℂ) := by
    have e1 := csqrt_sq h4
    have e2 := csqrt_sq h3
    rw [star_mul']
    calc _ = (csqrt (1 - p) * star (csqrt (1 - p))) * (csqrt (p / 3) * star (csqrt (p / 3))) := by ring
      _ = _ := by rw [e1, e2]; push_cast; ring
  have e1 : ((1 : ℂ) - (p : ℂ)) = ((1 - p : ℝ) : ℂ) := by push_cast; ring
  have e2 : ((p : ℂ) / 3) = ((p / 3 : ℝ) : ℂ) := by push_cast; ring
  have ha := pauli_kraus (hself (1 - p)) (pauliLike_I.kron pauliLike_I)
  have hb := fun P Q : IXYZ => pauli_kraus (hself (p / 3)) ((pauliLike_ixyz P).kron (pauliLike_ixyz Q))
  have hd := fun P Q : IXYZ => pauli_kraus hc ((pauliLike_ixyz P).kron (pauliLike_ixyz Q))
  have b1 := fun P Q => (hb P Q).1
  have b2 := fun P Q ρ => (hb P Q).2 ρ
  have d1 := fun P Q => (hd P Q).1
  have d2 := fun P Q ρ => (hd P Q).2 ρ
  have eI : Ops.I = Ops.fromIxyz .I := rfl
  have eX : Ops.X = Ops.fromIxyz (.axis .X) := rfl
  have eY : Ops.Y = Ops.fromIxyz (.axis .Y) := rfl
  have eZ : Ops.Z = Ops.fromIxyz (.axis .Z) := rfl
  have hok : twoQubitDepolarisingTensorChannel p = .ok _ := make_ok (by simp) (by simp) (by
    simp only [KrausChannel.work, List.map_cons, List.map_nil, List.sum_cons, List.sum_nil, add_zero, e1, e2, ha.1]
    simp only [eI, eX, eY, eZ, b1, d1, ← add_smul]
    simp only [← Complex.ofReal_add]
    have : ∀ x : ℝ, x = 1 → (x : ℂ) • (1 : Matrix (Bool × Bool) (Bool × Bool) ℂ) = 1 := by
      rintro _ rfl; simp
    apply this
    ring)
  refine ⟨_, hok, (C43_constructed_complete _ _ _ hok).1, fun ρ => ?_⟩
  rw [sum_univ_ixyz]
  simp only [sum_univ_ixyz, depolarisingWeight]
  simp only [KrausChannel.act, List.map_cons, List.map_nil, List.sum_cons, List.sum_nil, add_zero, e1, e2, ha.2]
  simp only [eI, eX, eY, eZ, b2, d2]
  rw [show p / 3 * (1 - p) = (1 - p) * (p / 3) by ring]
  abel

/-- **C43** `amplitude_damping_channel`: the excited population decays with probability `γ`, the coherences are
multiplied by `√(1-γ)`. -/
theorem C43_amplitude_damping (γ : ℝ) (h0 : 0 ≤ γ) (h1 : γ ≤ 1) :
    ∃ ch, amplitudeDampingChannel γ = .ok ch ∧ ch.Complete ∧ ∀ a b c d : ℂ,
      ch.act (mat2 a b c d) = mat2 (a + γ * d) (csqrt (1 - γ) * b) (csqrt (1 - γ) * c) ((1 - γ : ℝ) * d) := by
  have e1 := csqrt_sq (by linarith : 0 ≤ 1 - γ)
  have e2 := csqrt_sq h0
  have s1 : star (csqrt (1 - γ)) = csqrt (1 - γ) := by simp [csqrt]
  have s2 : star (csqrt γ) = csqrt γ := by simp [csqrt]
  rw [s1] at e1
  rw [s2] at e2
  have s1' : (starRingEnd ℂ) (csqrt (1 - γ)) = csqrt (1 - γ) := s1
  have s2' : (starRingEnd ℂ) (csqrt γ) = csqrt γ := s2
  have hok : amplitudeDampingChannel γ = .ok _ := make_ok (by simp [amplitudeDampingKraus])
    (by simp [amplitudeDampingKraus]) (by
    simp only [KrausChannel.work, amplitudeDampingKraus, List.map_cons, List.map_nil, List.sum_cons, List.sum_nil,
      KrausData.mat, one_smul, mat2_conjTranspose, mat2_mul, mat2_add, add_zero]
    simp [e1, e2, s1', s2', mat2_one])
  refine ⟨_, hok, (C43_constructed_complete _ _ _ hok).1, fun a b c d => ?_⟩
  simp only [KrausChannel.act, amplitudeDampingKraus, List.map_cons, List.map_nil, List.sum_cons, List.sum_nil,
      KrausData.mat, one_smul, mat2_conjTranspose, mat2_mul, mat2_add, add_zero]
  have e1' : csqrt (1 - γ) * d * csqrt (1 - γ) = ((1 - γ : ℝ) : ℂ) * d := by rw [← e1]; ring
  have e2' : csqrt γ * d * csqrt γ = (γ : ℂ) * d := by rw [← e2]; ring
  congr 1 <;> simp [s1', s2', e1', e2'] <;> ring

/-- **C43** `two_qubit_amplitude_damping_channel` is the tensor product of two amplitude damping channels: its
action on a product is the product of the actions. -/
theorem C43_two_qubit_amplitude_damping (γ : ℝ) (h0 : 0 ≤ γ) (h1 : γ ≤ 1) :
    ∃ ch₁ ch, amplitudeDampingChannel γ = .ok ch₁ ∧ twoQubitAmplitudeDampingChannel γ = .ok ch ∧ ch.Complete ∧
      ∀ ρ σ : Mat2, ch.act (ρ ⊗ₖ σ) = ch₁.act ρ ⊗ₖ ch₁.act σ := by
  obtain ⟨ch₁, hok₁, hc₁, -⟩ := C43_amplitude_damping γ h0 h1
  have hch : ch₁ = ⟨(amplitudeDampingKraus γ).map fun k => ⟨1, k⟩⟩ := by
    unfold amplitudeDampingChannel KrausChannel.make at hok₁
    split at hok₁
    · cases hok₁
    split at hok₁
    · cases hok₁
    split at hok₁
    · cases hok₁
    exact (Except.ok.inj hok₁).symm
  subst hch
  refine ⟨_, ⟨(amplitudeDampingKraus γ).flatMap fun l => (amplitudeDampingKraus γ).map fun r => ⟨1, l ⊗ₖ r⟩⟩, hok₁, ?_⟩
  have hc := hc₁
  simp only [KrausChannel.Complete, amplitudeDampingKraus, List.map_cons, List.map_nil, List.sum_cons, List.sum_nil,
    KrausData.mat, one_smul, add_zero] at hc
  set K₁ : Mat2 := mat2 1 0 0 (csqrt (1 - γ))
  set K₂ : Mat2 := mat2 0 (csqrt γ) 0 0
  have hw : KrausChannel.work ((amplitudeDampingKraus γ).flatMap fun l =>
      (amplitudeDampingKraus γ).map fun r => (⟨1, l ⊗ₖ r⟩ : KrausData (Bool × Bool))) = 1 := by
    simp only [KrausChannel.work, amplitudeDampingKraus, List.flatMap_cons, List.flatMap_nil, List.map_cons,
      List.map_nil, List.sum_cons, List.sum_nil, KrausData.mat, one_smul, add_zero, List.append_nil, List.cons_append,
      List.nil_append, Matrix.conjTranspose_kronecker, ← Matrix.mul_kronecker_mul]
    rw [← add_assoc, ← Matrix.kronecker_add, ← Matrix.kronecker_add, hc, ← Matrix.add_kronecker, hc,
      Matrix.one_kronecker_one]
  have hok : twoQubitAmplitudeDampingChannel γ = .ok _ := make_ok (by simp [amplitudeDampingKraus])
    (by simp [amplitudeDampingKraus]) hw
  refine ⟨hok, (C43_constructed_complete _ _ _ hok).1, fun ρ σ => ?_⟩
  simp only [KrausChannel.act, amplitudeDampingKraus, List.flatMap_cons, List.flatMap_nil, List.map_cons,
      List.map_nil, List.sum_cons, List.sum_nil, KrausData.mat, one_smul, add_zero, List.append_nil, List.cons_append,
      List.nil_append, Matrix.conjTranspose_kronecker, ← Matrix.mul_kronecker_mul]
  rw [← add_assoc, ← Matrix.kronecker_add, ← Matrix.kronecker_add, ← Matrix.add_kronecker]

/-- The hypotheses are met, e.g. by the probability 1/10. -/
example : ∃ ch, twoQubitDepolarisingChannel (1 / 10) = .ok ch ∧ ch.Complete := by
  obtain ⟨ch, h1, h2, -⟩ := C43_two_qubit_depolarising (1 / 10) (by norm_num) (by norm_num)
  exact ⟨ch, h1, h2⟩

end Graphix
