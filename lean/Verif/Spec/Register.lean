import Verif.Quantum.State

/-!
# Specification: registers

A register lists the node stored at each qubit position, position 0 being the most significant bit of
the index of an amplitude.  `absState l psi` is the state of the nodes of `l` described by the
amplitudes `psi`.
-/

namespace Graphix

/-- The index of the amplitude of basis state `b` in the register `l`. -/
def enc : List ℕ → Basis → ℕ
  | [], _ => 0
  | n :: l, b => (b n).toNat * 2 ^ l.length + enc l b

/-- The state of the nodes of the register `l` with amplitudes `psi`. -/
def absState (l : List ℕ) (psi : ℕ → ℂ) : QState := fun b => psi (enc l b)

/-- The squared norm of the amplitudes of `n` qubits. -/
noncomputable def normSq (n : ℕ) (psi : ℕ → ℂ) : ℝ := ∑ i ∈ Finset.range (2 ^ n), Complex.normSq (psi i)

theorem enc_lt (l : List ℕ) (b : Basis) : enc l b < 2 ^ l.length := by
  induction l with
  | nil => simp [enc]
  | cons n l ih =>
    simp only [enc, List.length_cons, pow_succ]
    have : (b n).toNat ≤ 1 := Bool.toNat_le _
    nlinarith [this, ih]

theorem enc_append (l l' : List ℕ) (b : Basis) :
    enc (l ++ l') b = enc l b * 2 ^ l'.length + enc l' b := by
  induction l with
  | nil => simp [enc]
  | cons n l ih => simp only [List.cons_append, enc, ih, List.length_append, pow_add]; ring

theorem enc_congr {l : List ℕ} {b b' : Basis} (h : ∀ n ∈ l, b n = b' n) : enc l b = enc l b' := by
  induction l with
  | nil => rfl
  | cons n l ih =>
    simp only [enc]
    rw [h n (by simp), ih (fun k hk => h k (by simp [hk]))]

theorem enc_update {l : List ℕ} {n : ℕ} (h : n ∉ l) (b : Basis) (x : Bool) :
    enc l (Function.update b n x) = enc l b := by
  apply enc_congr
  intro k hk
  rw [Function.update_of_ne]
  rintro rfl; exact h hk

/-- Cutting a register at a node: block, bit, offset. -/
theorem enc_split (l1 l2 : List ℕ) (n : ℕ) (b : Basis) :
    enc (l1 ++ n :: l2) b = (2 * enc l1 b + (b n).toNat) * 2 ^ l2.length + enc l2 b := by
  rw [enc_append]; simp only [enc, List.length_cons, pow_succ]; ring

theorem enc_surj {l : List ℕ} (hl : l.Nodup) : ∀ i < 2 ^ l.length, ∃ b, enc l b = i := by
  induction l with
  | nil => intro i hi; exact ⟨fun _ => false, by simp at hi; simp [enc, hi]⟩
  | cons n l ih =>
    intro i hi
    rw [List.nodup_cons] at hl
    have hpos : 0 < 2 ^ l.length := by positivity
    obtain ⟨b, hb⟩ := ih hl.2 (i % 2 ^ l.length) (Nat.mod_lt _ hpos)
    refine ⟨Function.update b n (decide (i / 2 ^ l.length = 1)), ?_⟩
    simp only [enc, enc_update hl.1, hb, Function.update_self]
    have hq : i / 2 ^ l.length < 2 := by
      rw [Nat.div_lt_iff_lt_mul hpos]; rw [List.length_cons, pow_succ] at hi; linarith
    have := Nat.div_add_mod' i (2 ^ l.length)
    rcases (show i / 2 ^ l.length = 0 ∨ i / 2 ^ l.length = 1 by
      generalize i / 2 ^ l.length = k at hq; omega) with h | h
    · rw [h] at this ⊢; simpa using this
    · rw [h] at this ⊢; simpa using this

theorem testBit_enc (l1 l2 : List ℕ) (n : ℕ) (b : Basis) :
    (enc (l1 ++ n :: l2) b).testBit l2.length = b n := by
  rw [enc_split, Nat.testBit_eq_decide_div_mod_eq]
  have h := enc_lt l2 b
  rw [add_comm, Nat.add_mul_div_right _ _ (by positivity), Nat.div_eq_of_lt h]
  cases b n <;> simp <;> omega

theorem absState_smul (l : List ℕ) (c : ℂ) (psi : ℕ → ℂ) :
    absState l (fun i => c * psi i) = c • absState l psi := rfl

end Graphix
