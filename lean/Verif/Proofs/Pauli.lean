import Verif.Spec.Pauli
import Verif.Proofs.LocalOps
import Verif.Props.PauliString
import Verif.Props.CircuitBasis

/-!
# Rows of a tableau as operators
-/

namespace Graphix

open Function

theorem zc2 (x : ZMod 2) : x = 0 ∨ x = 1 := by revert x; decide

/-- The Pauli matrix of an X bit and a Z bit. -/
noncomputable def pm (x z : ZMod 2) : Mat2 :=
  if x = 1 then (if z = 1 then Ops.Y else Ops.X) else if z = 1 then Ops.Z else 1

@[simp] theorem pm00 : pm 0 0 = 1 := by simp [pm]
@[simp] theorem pm01 : pm 0 1 = Ops.Z := by simp [pm]
@[simp] theorem pm10 : pm 1 0 = Ops.X := by simp [pm]
@[simp] theorem pm11 : pm 1 1 = Ops.Y := by simp [pm]

/-- `(-1)^x`. -/
noncomputable def sg2 (x : ZMod 2) : ℂ := if x = 1 then -1 else 1

@[simp] theorem sg2_zero : sg2 0 = 1 := by simp [sg2]
@[simp] theorem sg2_one : sg2 1 = -1 := by simp [sg2]

theorem sg2_add (x y : ZMod 2) : sg2 (x + y) = sg2 x * sg2 y := by
  rcases zc2 x with rfl | rfl <;> rcases zc2 y with rfl | rfl <;> simp
  rw [show (1 + 1 : ZMod 2) = 0 by decide, sg2_zero]

theorem sg2_mul_self (x : ZMod 2) : sg2 x * sg2 x = 1 := by
  rcases zc2 x with rfl | rfl <;> simp

theorem sg2_inj {x y : ZMod 2} (h : sg2 x = sg2 y) : x = y := by
  rcases zc2 x with rfl | rfl <;> rcases zc2 y with rfl | rfl <;> simp at h <;> first | rfl | (exfalso; revert h; norm_num)

theorem sg2_ne (x : ZMod 2) : sg2 x ≠ 0 := by
  rcases zc2 x with rfl | rfl <;> simp

/-- The operator of a row with `n` X bits, `n` Z bits and a sign bit. -/
noncomputable def rowOp (n : ℕ) (t : ℕ → ZMod 2) (ψ : QState) : QState :=
  sg2 (t (2 * n)) • locOps (fun q => pm (t q) (t (q + n))) (List.range n) ψ

theorem rowOp_congr {n : ℕ} {t t' : ℕ → ZMod 2} (h : ∀ i, i ≤ 2 * n → t i = t' i) (ψ : QState) : rowOp n t ψ = rowOp n t' ψ := by
  unfold rowOp
  rw [h _ (le_refl _)]
  congr 1
  refine locOps_congr (fun q hq => ?_) ψ
  have := List.mem_range.1 hq
  rw [h q (by omega), h (q + n) (by omega)]

theorem locOps_foldr (F : ℕ → Mat2) (l : List ℕ) (ψ : QState) : locOps F l ψ = l.foldr (fun q φ => op1 (F q) q φ) ψ := by
  induction l with
  | nil => rfl
  | cons a l ih => unfold locOps; rw [ih]; rfl

/-- The tableau of a Pauli string has the same operator. -/
theorem PauliString.op_toTableau {p : PauliString} (hp : p.Valid) {t : ℕ → ZMod 2} (ht : p.toTableau = .ok t) (ψ : QState) :
    p.op ψ = rowOp p.dim t ψ := by
  obtain ⟨t', h1, h2, h3⟩ := toTableau_spec p hp
  rw [ht] at h1; cases h1
  unfold PauliString.op rowOp
  rw [← locOps_foldr, h3]
  congr 1
  · cases p.sign <;> simp [Sign.toComplex, Sign.toInt]
  · refine locOps_congr (fun q hq => ?_) ψ
    obtain ⟨e1, e2⟩ := h2 q (List.mem_range.1 hq)
    rw [e1, e2]
    unfold PauliString.mat
    rcases p.axes.get? q with - | a
    · simp [xbit, zbit]
    · cases a <;> simp [xbit, zbit, Ops.fromAxis]

/-- The Pauli string read from a row has the operator of the row. -/
theorem PauliString.op_fromTableau {n : ℕ} {t : ℕ → ZMod 2} {p : PauliString} (hp : fromTableau (2 * n + 1) t = .ok p) (ψ : QState) :
    p.op ψ = rowOp n t ψ := by
  obtain ⟨p', t', h1, h2, h3, h4, h5⟩ := C47_tableau_roundtrip' n t
  rw [hp] at h1; cases h1
  rw [op_toTableau h2 h4, h3]
  exact rowOp_congr (fun i hi => h5 i (by omega)) ψ

theorem PauliString.Eq.op {p q : PauliString} (h : p.Eq q) (ψ : QState) : p.op ψ = q.op ψ := by
  obtain ⟨h1, h2, h3⟩ := h
  unfold PauliString.op PauliString.mat
  rw [h1, h3]
  simp only [h2]

/-! ### Conjugations -/

theorem locOps_op1_right (F : ℕ → Mat2) (U : Mat2) {n : ℕ} {l : List ℕ} (hl : l.Nodup) (hn : n ∈ l) (ψ : QState) :
    locOps F l (op1 U n ψ) = locOps (update F n (F n * U)) l ψ := by
  induction l generalizing ψ with
  | nil => simp at hn
  | cons a l ih =>
    rw [List.nodup_cons] at hl
    unfold locOps
    by_cases h : n = a
    · subst h
      rw [← locOps_op1 F U hl.1, op1_mul, update_self]
      congr 1
      apply locOps_congr
      intro k hk
      rw [update_of_ne]
      rintro rfl; exact hl.1 hk
    · rw [ih hl.2 (by simpa [h] using hn), update_of_ne (Ne.symm h)]

theorem locOps_update_smul (F : ℕ → Mat2) (c : ℂ) (A : Mat2) {n : ℕ} {l : List ℕ} (hl : l.Nodup) (hn : n ∈ l) (ψ : QState) :
    locOps (update F n (c • A)) l ψ = c • locOps (update F n A) l ψ := by
  induction l with
  | nil => simp at hn
  | cons a l ih =>
    rw [List.nodup_cons] at hl
    unfold locOps
    by_cases h : n = a
    · subst h
      rw [update_self, update_self, op1_mat_smul]
      congr 2
      apply locOps_congr
      intro k hk
      have : k ≠ n := by rintro rfl; exact hl.1 hk
      rw [update_of_ne this, update_of_ne this]
    · rw [ih hl.2 (by simpa [h] using hn), update_of_ne (Ne.symm h), update_of_ne (Ne.symm h), op1_smul]

/-- Conjugation by a single-qubit gate. -/
theorem conj1 {U : Mat2} {q : ℕ} {l : List ℕ} (hl : l.Nodup) (hq : q ∈ l) {F F' : ℕ → Mat2} {c : ℂ}
    (hF : ∀ k ∈ l, k ≠ q → F' k = F k) (hU : U * F q = c • (F' q * U)) (ψ : QState) :
    op1 U q (locOps F l ψ) = c • locOps F' l (op1 U q ψ) := by
  rw [op1_locOps F U hl hq, locOps_op1_right F' U hl hq, hU, locOps_update_smul _ _ _ hl hq]
  congr 1
  refine locOps_congr (fun k hk => ?_) ψ
  by_cases h : k = q
  · subst h; rw [update_self, update_self]
  · rw [update_of_ne h, update_of_ne h, hF k hk h]

theorem locOps_perm (F : ℕ → Mat2) {l l' : List ℕ} (h : l.Perm l') (hl : l.Nodup) (ψ : QState) : locOps F l ψ = locOps F l' ψ := by
  induction h with
  | nil => rfl
  | cons a _ ih => unfold locOps; rw [ih (List.nodup_cons.1 hl).2]
  | swap a b l =>
    have : b ≠ a := by
      rintro rfl
      simp at hl
    show op1 (F b) b (op1 (F a) a _) = op1 (F a) a (op1 (F b) b _)
    rw [op1_comm _ _ this]
  | trans h1 _ ih1 ih2 => rw [ih1 hl, ih2 (h1.nodup_iff.1 hl)]

/-- Conjugation by a two-qubit gate. -/
theorem conj2 {G : QState → QState} {q0 q1 : ℕ} (h01 : q0 ≠ q1) {l : List ℕ} (hl : l.Nodup) (h0 : q0 ∈ l) (h1 : q1 ∈ l)
    {F F' : ℕ → Mat2} {c : ℂ} (hF : ∀ k ∈ l, k ≠ q0 → k ≠ q1 → F' k = F k)
    (hcomm : ∀ U k ψ, k ≠ q0 → k ≠ q1 → G (op1 U k ψ) = op1 U k (G ψ))
    (hpair : ∀ ψ, G (op1 (F q0) q0 (op1 (F q1) q1 ψ)) = c • op1 (F' q0) q0 (op1 (F' q1) q1 (G ψ))) (ψ : QState) :
    G (locOps F l ψ) = c • locOps F' l (G ψ) := by
  have hp : l.Perm (q0 :: q1 :: (l.erase q0).erase q1) := by
    refine (List.perm_cons_erase h0).trans (List.Perm.cons _ (List.perm_cons_erase ?_))
    exact (List.mem_erase_of_ne h01.symm).2 h1
  have hn := hp.nodup_iff.1 hl
  rw [locOps_perm F hp hl, locOps_perm F' hp hl]
  simp only [locOps]
  rw [hpair]
  congr 3
  rw [List.nodup_cons, List.nodup_cons] at hn
  have hmem : ∀ k ∈ (l.erase q0).erase q1, k ∈ l ∧ k ≠ q0 ∧ k ≠ q1 := by
    intro k hk
    refine ⟨List.mem_of_mem_erase (List.mem_of_mem_erase hk), ?_, ?_⟩
    · rintro rfl; exact hn.1 (List.mem_cons_of_mem _ hk)
    · rintro rfl; exact hn.2.1 hk
  have : ∀ m : List ℕ, (∀ k ∈ m, k ∈ l ∧ k ≠ q0 ∧ k ≠ q1) → ∀ φ, G (locOps F m φ) = locOps F' m (G φ) := by
    intro m hm φ
    induction m with
    | nil => rfl
    | cons k m ih =>
      simp only [locOps]
      obtain ⟨hk, e0, e1⟩ := hm k (by simp)
      rw [hcomm _ _ _ e0 e1, ih fun k hk => hm k (by simp [hk]), hF k hk e0 e1]
  exact this _ hmem ψ

/-! ### Commutation -/

theorem locOps_smul_mat (c : ℕ → ZMod 2) (A : ℕ → Mat2) (l : List ℕ) (ψ : QState) :
    locOps (fun q => sg2 (c q) • A q) l ψ = sg2 (l.map c).sum • locOps A l ψ := by
  induction l with
  | nil => simp [locOps]
  | cons a l ih =>
    unfold locOps
    rw [ih, op1_mat_smul, op1_smul, smul_smul, List.map_cons, List.sum_cons, sg2_add]

theorem pm_comm (x z x' z' : ZMod 2) : pm x z * pm x' z' = sg2 (x * z' + z * x') • (pm x' z' * pm x z) := by
  rcases zc2 x with rfl | rfl <;> rcases zc2 z with rfl | rfl <;> rcases zc2 x' with rfl | rfl <;> rcases zc2 z' with rfl | rfl <;>
    simp only [pm00, pm01, pm10, pm11, mul_zero, zero_mul, mul_one, one_mul, add_zero, zero_add, sg2_zero, sg2_one, one_smul,
      show (1 + 1 : ZMod 2) = 0 by decide] <;>
    simp [Ops.X, Ops.Y, Ops.Z, mat2_mul, mat2_neg]

theorem pm_mul_self (x z : ZMod 2) : pm x z * pm x z = 1 := by
  rcases zc2 x with rfl | rfl <;> rcases zc2 z with rfl | rfl <;> simp [Ops.X, Ops.Y, Ops.Z, mat2_mul, mat2_one]

/-- The symplectic form of two rows. -/
def symp (n : ℕ) (t t' : ℕ → ZMod 2) : ZMod 2 := ((List.range n).map fun q => t q * t' (q + n) + t (q + n) * t' q).sum

theorem rowOp_homog (n : ℕ) (t : ℕ → ZMod 2) : Homog (rowOp n t) := by
  intro c ψ
  unfold rowOp
  rw [locOps_homog, smul_comm]

theorem rowOp_comm (n : ℕ) (t t' : ℕ → ZMod 2) (ψ : QState) :
    rowOp n t (rowOp n t' ψ) = sg2 (symp n t t') • rowOp n t' (rowOp n t ψ) := by
  unfold rowOp
  rw [locOps_homog, locOps_homog, locOps_mul _ _ List.nodup_range, locOps_mul _ _ List.nodup_range]
  have : (fun q => pm (t q) (t (q + n)) * pm (t' q) (t' (q + n))) =
      fun q => sg2 (t q * t' (q + n) + t (q + n) * t' q) • (pm (t' q) (t' (q + n)) * pm (t q) (t (q + n))) := by
    funext q; exact pm_comm _ _ _ _
  rw [this, locOps_smul_mat]
  unfold symp
  simp only [smul_smul]
  congr 1
  ring

theorem rowOp_mul_self (n : ℕ) (t : ℕ → ZMod 2) (ψ : QState) : rowOp n t (rowOp n t ψ) = ψ := by
  unfold rowOp
  rw [locOps_homog, locOps_mul _ _ List.nodup_range, smul_smul, sg2_mul_self, one_smul]
  have : (fun q => pm (t q) (t (q + n)) * pm (t q) (t (q + n))) = fun _ => 1 := by
    funext q; exact pm_mul_self _ _
  rw [this, locOps_one]

theorem symp_of_comm {n : ℕ} {t t' : ℕ → ZMod 2} {w : ZMod 2}
    (h : ∀ ψ, rowOp n t (rowOp n t' ψ) = sg2 w • rowOp n t' (rowOp n t ψ)) : symp n t t' = w := by
  have h1 := h (rowOp n t (rowOp n t' fun _ => 1))
  rw [rowOp_comm, rowOp_mul_self, rowOp_mul_self] at h1
  have h2 := congrFun h1 fun _ => false
  simp only [Pi.smul_apply, smul_eq_mul, mul_one] at h2
  exact sg2_inj h2

/-! ### The gates -/

namespace Berg

theorem rowOp_H {n q : ℕ} (hq : q < n) (s : St) (r : ℕ) (ψ : QState) :
    op1 Ops.H q (rowOp n (s.tab r) ψ) = rowOp n ((addH n s q).tab r) (op1 Ops.H q ψ) := by
  unfold rowOp
  rw [op1_smul, conj1 (c := sg2 (s.tab r q * s.tab r (q + n))) (F' := fun k => pm ((addH n s q).tab r k) ((addH n s q).tab r (k + n)))
    List.nodup_range (List.mem_range.2 hq), smul_smul]
  · congr 1
    rw [← sg2_add]
    simp [addH]
  · intro k hkn hk
    rw [List.mem_range] at hkn
    simp only [addH]
    rw [if_neg (by omega), if_neg hk, if_neg (by omega), if_neg (by omega), if_neg (by omega), if_neg (by omega)]
  · have e : q + n ≠ 2 * n := by omega
    have e2 : q + n ≠ q := by omega
    have e3 : q ≠ 2 * n := by omega
    simp only [addH, e, e2, e3, if_true, if_false]
    rcases zc2 (s.tab r q) with e1 | e1 <;> rcases zc2 (s.tab r (q + n)) with e2 | e2 <;> rw [e1, e2] <;>
      simp [Ops.H, Ops.X, Ops.Y, Ops.Z, mat2_mul, mat2_neg, mat2_smul]
    congr 1 <;> ring

theorem rowOp_S {n q : ℕ} (hq : q < n) (s : St) (r : ℕ) (ψ : QState) :
    op1 Ops.S q (rowOp n (s.tab r) ψ) = rowOp n ((addS n s q).tab r) (op1 Ops.S q ψ) := by
  unfold rowOp
  rw [op1_smul, conj1 (c := sg2 (s.tab r q * s.tab r (q + n))) (F' := fun k => pm ((addS n s q).tab r k) ((addS n s q).tab r (k + n)))
    List.nodup_range (List.mem_range.2 hq), smul_smul]
  · congr 1
    rw [← sg2_add]
    simp [addS]
  · intro k hkn hk
    rw [List.mem_range] at hkn
    simp only [addS]
    rw [if_neg (by omega), if_neg (by omega), if_neg (by omega), if_neg (by omega)]
  · have e : q + n ≠ 2 * n := by omega
    have e2 : q ≠ q + n := by omega
    have e3 : q ≠ 2 * n := by omega
    simp only [addS, e, e2, e3, if_true, if_false]
    rcases zc2 (s.tab r q) with e1 | e1 <;> rcases zc2 (s.tab r (q + n)) with e2 | e2 <;> rw [e1, e2] <;>
      simp [Ops.S, Ops.X, Ops.Y, Ops.Z, mat2_mul, mat2_neg, mat2_smul, show (1 + 1 : ZMod 2) = 0 by decide]

/-- The phase of a Pauli matrix on a basis state. -/
noncomputable def pph (x z : ZMod 2) (v : Bool) : ℂ :=
  if z = 1 then (if x = 1 then (if v then Complex.I else -Complex.I) else if v then -1 else 1) else 1

theorem op1_pm (x z : ZMod 2) (n : ℕ) (ψ : QState) (b : Basis) :
    op1 (pm x z) n ψ b = pph x z (b n) * ψ (update b n (Bool.xor (b n) (decide (x = 1)))) := by
  rcases zc2 x with rfl | rfl <;> rcases zc2 z with rfl | rfl
  · rw [pm00, op1_one]; simp [pph]
  · rw [pm01]; cases h : b n <;> simp [op1, pph, Ops.Z, h, upd_eq h]
  · rw [pm10]; cases h : b n <;> simp [op1, pph, Ops.X, h]
  · rw [pm11]; cases h : b n <;> simp [op1, pph, Ops.Y, h]

theorem rowOp_CNOT {n c t : ℕ} (hc : c < n) (ht : t < n) (hct : c ≠ t) (s : St) (r : ℕ) (ψ : QState) :
    cnotOp c t (rowOp n (s.tab r) ψ) = rowOp n ((addCnot n s c t).tab r) (cnotOp c t ψ) := by
  unfold rowOp
  have hG : Homog (cnotOp c t) := fun a ψ => rfl
  rw [hG, conj2 (G := cnotOp c t) (c := sg2 (s.tab r c * s.tab r (t + n) * (s.tab r t + s.tab r (c + n) + 1)))
    (F' := fun k => pm ((addCnot n s c t).tab r k) ((addCnot n s c t).tab r (k + n))) hct
    List.nodup_range (List.mem_range.2 hc) (List.mem_range.2 ht), smul_smul]
  · congr 1
    rw [← sg2_add]
    simp [addCnot]
  · intro k hkn hk hk'
    rw [List.mem_range] at hkn
    simp only [addCnot]
    rw [if_neg (by omega), if_neg (by omega), if_neg (by omega), if_neg (by omega), if_neg (by omega), if_neg (by omega)]
  · intro U k ψ h1 h2
    exact cnot_op1_comm (Ne.symm h1) (Ne.symm h2) U ψ
  · intro ψ
    have e1 : c ≠ 2 * n := by omega
    have e2 : t ≠ 2 * n := by omega
    have e3 : c + n ≠ 2 * n := by omega
    have e4 : t + n ≠ 2 * n := by omega
    have e5 : c + n ≠ t := by omega
    have e6 : t + n ≠ t := by omega
    have e7 : t + n ≠ c + n := by omega
    have e8 : t ≠ c + n := by omega
    have e9 : c ≠ c + n := by omega
    simp only [addCnot, e1, e2, e3, e4, e5, e6, e7, e8, e9, hct, hct.symm, if_true, if_false]
    generalize s.tab r c = x0
    generalize s.tab r t = x1
    generalize s.tab r (c + n) = z0
    generalize s.tab r (t + n) = z1
    funext b
    simp only [cnotOp, Pi.smul_apply, smul_eq_mul, op1_pm]
    rw [← mul_assoc, ← mul_assoc, ← mul_assoc]
    congr 1
    · simp only [update_self, update_of_ne hct, update_of_ne hct.symm]
      have h11 : (1 + 1 : ZMod 2) = 0 := by decide
      rcases zc2 x0 with rfl | rfl <;> rcases zc2 x1 with rfl | rfl <;> rcases zc2 z0 with rfl | rfl <;> rcases zc2 z1 with rfl | rfl <;>
        cases b c <;> cases b t <;> simp [pph, h11]
    · congr 1
      funext k
      by_cases k1 : k = c
      · subst k1
        simp [update_of_ne hct, update_of_ne hct.symm]
      · by_cases k2 : k = t
        · subst k2
          simp only [update_self, update_of_ne hct, update_of_ne hct.symm]
          have h11 : (1 + 1 : ZMod 2) = 0 := by decide
          rcases zc2 x0 with rfl | rfl <;> rcases zc2 x1 with rfl | rfl <;> cases b c <;> cases b k <;> simp [h11]
        · simp [update_of_ne k1, update_of_ne k2]

theorem swap_op1 (U : Mat2) (u v k : ℕ) (ψ : QState) : swapOp u v (op1 U k ψ) = op1 U (Equiv.swap u v k) (swapOp u v ψ) := by
  funext b
  have : ∀ x, update (b ∘ Equiv.swap u v) k x = update b (Equiv.swap u v k) x ∘ Equiv.swap u v := by
    intro x
    funext j
    by_cases h : j = k
    · subst h; simp
    · rw [update_of_ne h, comp_apply, comp_apply, update_of_ne]
      exact fun e => h ((Equiv.swap u v).injective e)
  simp only [swapOp, op1, comp_apply, this]

theorem rowOp_SWAP {n u v : ℕ} (hu : u < n) (hv : v < n) (huv : u ≠ v) (s : St) (r : ℕ) (ψ : QState) :
    swapOp u v (rowOp n (s.tab r) ψ) = rowOp n ((addSwap n s u v).tab r) (swapOp u v ψ) := by
  unfold rowOp
  have hG : Homog (swapOp u v) := fun a ψ => rfl
  rw [hG, conj2 (G := swapOp u v) (c := 1)
    (F' := fun k => pm ((addSwap n s u v).tab r k) ((addSwap n s u v).tab r (k + n))) huv
    List.nodup_range (List.mem_range.2 hu) (List.mem_range.2 hv), one_smul]
  · congr 1
    simp only [addSwap]
    rw [if_neg (by omega), if_neg (by omega), if_neg (by omega), if_neg (by omega)]
  · intro k hkn hk hk'
    rw [List.mem_range] at hkn
    simp only [addSwap]
    rw [if_neg (by omega), if_neg (by omega), if_neg (by omega), if_neg (by omega), if_neg (by omega), if_neg (by omega),
      if_neg (by omega), if_neg (by omega)]
  · intro U k ψ h1 h2
    rw [swap_op1, Equiv.swap_apply_of_ne_of_ne h1 h2]
  · intro ψ
    have e1 : u + n ≠ u := by omega
    have e2 : u + n ≠ v := by omega
    have e3 : v + n ≠ u := by omega
    have e4 : v + n ≠ v := by omega
    have e5 : v + n ≠ u + n := by omega
    simp only [addSwap, e1, e2, e3, e4, e5, huv, huv.symm, if_true, if_false]
    rw [swap_op1, swap_op1, Equiv.swap_apply_left, Equiv.swap_apply_right, one_smul, op1_comm _ _ huv.symm]

end Berg
end Graphix
