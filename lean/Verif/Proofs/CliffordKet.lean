import Verif.Proofs.GraphState
import Verif.Proofs.Clifford
import Verif.Proofs.Measurement

/-! # Graph states with a Clifford gate on every node -/

namespace Graphix

open Function

/-- The graph state with Clifford gate `F n` on node `n`. -/
noncomputable def cket (F : ℕ → Clifford) (adj : ℕ → ℕ → Bool) (l : List ℕ) (φ : QState) : QState :=
  locOps (fun n => (F n).matrix) l (entangleAll adj l φ)

theorem MatPhaseEq.mulc {c d e : Clifford} (h : c.mul d = e) : MatPhaseEq (c.matrix * d.matrix) e.matrix :=
  h ▸ Clifford.mul_matrix c d

theorem cket_congr {F G : ℕ → Clifford} {adj adj' : ℕ → ℕ → Bool} {l : List ℕ} (h : ∀ n ∈ l, F n = G n)
    (ha : ∀ x ∈ l, ∀ y ∈ l, adj x y = adj' x y) (φ : QState) : cket F adj l φ = cket G adj' l φ := by
  unfold cket
  have : entangleAll adj l φ = entangleAll adj' l φ := by
    funext b; rw [entangleAll_apply, entangleAll_apply, edgePar_congr ha fun _ _ => rfl]
  rw [this]
  exact locOps_congr (fun n hn => by rw [h n hn]) _

/-- Absorb a layer of local gates. -/
theorem cket_absorb {F K : ℕ → Clifford} {adj adj' : ℕ → ℕ → Bool} {l : List ℕ} (hl : l.Nodup) {φ : QState}
    (h : PhaseEq (entangleAll adj l φ) (locOps (fun n => (K n).matrix) l (entangleAll adj' l φ))) :
    PhaseEq (cket F adj l φ) (cket (fun n => (F n).mul (K n)) adj' l φ) := by
  unfold cket
  obtain ⟨c, hc, e⟩ := h
  rw [e, locOps_homog]
  refine PhaseEq.trans ⟨c, hc, rfl⟩ ?_
  rw [locOps_mul _ _ hl]
  exact (locOps_phase fun n _ => Clifford.mul_matrix _ _).state _

theorem op1_cket {F : ℕ → Clifford} {adj : ℕ → ℕ → Bool} {l : List ℕ} (hl : l.Nodup) {φ : QState} {u : ℕ} (hu : u ∈ l)
    (C : Clifford) : PhaseEq (op1 C.matrix u (cket F adj l φ)) (cket (update F u (C.mul (F u))) adj l φ) := by
  unfold cket
  rw [op1_locOps _ _ hl hu]
  refine (locOps_phase fun n _ => ?_).state _
  by_cases hn : n = u
  · subst hn; rw [update_self, update_self]; exact Clifford.mul_matrix _ _
  · rw [update_of_ne hn, update_of_ne hn]; exact MatPhaseEq.refl _

/-- `X` to the power `c` at `u`, `Z` to the power `c` at its neighbours. -/
def stabK (adj : ℕ → ℕ → Bool) (u : ℕ) (c : Bool) (n : ℕ) : Clifford :=
  if n = u then (if c then .X else .I) else if adj u n then (if c then .Z else .I) else .I

theorem locOps_update_one {l : List ℕ} (hl : l.Nodup) {u : ℕ} (hu : u ∈ l) (U : Mat2) (ψ : QState) :
    locOps (fun n => if n = u then U else 1) l ψ = op1 U u ψ := by
  have h := op1_locOps (fun _ => 1) U hl hu ψ
  rw [locOps_one] at h
  rw [h]
  refine locOps_congr (fun n _ => ?_) _
  by_cases hn : n = u
  · subst hn; simp
  · simp [hn]

theorem ent_stab {adj : ℕ → ℕ → Bool} {l : List ℕ} (h : SimpleOn adj l) {u : ℕ} (hu : u ∈ l) {φ : QState}
    (hφ : NoBit u φ) (c : Bool) :
    entangleAll adj l φ = locOps (fun n => (stabK adj u c n).matrix) l (entangleAll adj l φ) := by
  cases c with
  | false =>
    have : ∀ n, (stabK adj u false n).matrix = 1 := by
      intro n; unfold stabK; split <;> [skip; split] <;> simp [Clifford.matrix_I]
    rw [locOps_congr (G := fun _ => 1) (fun n _ => this n), locOps_one]
  | true =>
    have e : ∀ n, (stabK adj u true n).matrix = (if n = u then Ops.X else 1) * powB Ops.Z (adj u n) := by
      intro n
      unfold stabK powB
      by_cases hn : n = u
      · subst hn; simp [h.irrefl, Clifford.matrix_X]
      · cases adj u n <;> simp [hn, Clifford.matrix_I, Clifford.matrix_Z]
    rw [locOps_congr (G := fun n => (if n = u then Ops.X else 1) * powB Ops.Z (adj u n)) fun n _ => e n,
      ← locOps_mul _ _ h.nodup, locOps_update_one h.nodup hu, ← stab_ket h hu hφ, op1_mul]
    have : Ops.X * Ops.X = 1 := by unfold Ops.X; rw [mat2_mul, mat2_one]; norm_num
    rw [this, op1_one]

/-- Local gates that undo a local complementation at `u`, followed by a stabilizer. -/
def lcK (adj : ℕ → ℕ → Bool) (u : ℕ) (n : ℕ) : Clifford :=
  if n = u then (Clifford.H.mul Clifford.SDG).mul Clifford.H else if adj u n then .S else .I

theorem ent_lc_on {adj : ℕ → ℕ → Bool} {l : List ℕ} (h : SimpleOn adj l) {u : ℕ} (hu : u ∈ l) :
    ∃ c : ℂ, ‖c‖ = 1 ∧ ∀ φ, NoBit u φ →
      entangleAll adj l φ = c • locOps (fun n => (lcK adj u n).matrix) l (entangleAll (locComp adj u) l φ) := by
  have e : ∀ n, lcK adj u n = (if n = u then (Clifford.H.mul Clifford.SDG).mul Clifford.H else .I).mul
      (if adj u n then .S else .I) := by
    intro n
    unfold lcK
    by_cases hn : n = u
    · subst hn; rw [if_pos rfl, if_pos rfl, h.irrefl]; rfl
    · rw [if_neg hn, if_neg hn]; cases adj u n <;> rfl
  have hinv : MatPhaseEq (((Clifford.H.mul Clifford.SDG).mul Clifford.H).matrix * (Ops.H * Ops.S * Ops.H)) 1 := by
    rw [← Clifford.matrix_H, ← Clifford.matrix_S, ← Clifford.matrix_I]
    have h1 : MatPhaseEq (Clifford.H.matrix * Clifford.S.matrix * Clifford.H.matrix)
        ((Clifford.H.mul Clifford.S).mul Clifford.H).matrix :=
      (MatPhaseEq.mul (Clifford.mul_matrix _ _) (MatPhaseEq.refl _)).trans (Clifford.mul_matrix _ _)
    exact (MatPhaseEq.mul (MatPhaseEq.refl _) h1).trans (MatPhaseEq.mulc (by decide))
  have hS : ∀ n, powB Ops.S (adj u n) = (if adj u n then Clifford.S else .I).matrix := by
    intro n; unfold powB; cases adj u n <;> simp [Clifford.matrix_I, Clifford.matrix_S]
  obtain ⟨c1, hc1, h1⟩ := hinv.opPhase u
  obtain ⟨c1', hc1', h1'⟩ := OpPhaseEq.symm ⟨c1, hc1, h1⟩
  obtain ⟨c2, hc2, h2⟩ := locOps_phase (l := l)
    (F := fun n => (if n = u then ((Clifford.H.mul Clifford.SDG).mul Clifford.H).matrix else 1) * powB Ops.S (adj u n))
    (G := fun n => (lcK adj u n).matrix) (by
      intro n _
      rw [e n]
      refine MatPhaseEq.trans (MatPhaseEq.of_eq ?_) (Clifford.mul_matrix _ _)
      rw [hS]
      by_cases hn : n = u
      · rw [if_pos hn, if_pos hn]
      · rw [if_neg hn, if_neg hn, Clifford.matrix_I])
  refine ⟨c1' * c2, by simp [hc1', hc2], fun φ hφ => ?_⟩
  have h3 := h1' (entangleAll adj l φ)
  rw [op1_one, ← op1_mul, locComp_ket h hu hφ, ← locOps_update_one h.nodup hu, locOps_mul _ _ h.nodup] at h3
  rw [h3, h2, smul_smul]

theorem ent_lc {adj : ℕ → ℕ → Bool} {l : List ℕ} (h : SimpleOn adj l) {u : ℕ} (hu : u ∈ l) {φ : QState}
    (hφ : NoBit u φ) :
    PhaseEq (entangleAll adj l φ) (locOps (fun n => (lcK adj u n).matrix) l (entangleAll (locComp adj u) l φ)) := by
  obtain ⟨c, hc, h'⟩ := ent_lc_on h hu
  exact ⟨c, hc, h' φ hφ⟩

/-- Local gates that undo a pivot. -/
def pivK (adj : ℕ → ℕ → Bool) (u v : ℕ) (n : ℕ) : Clifford :=
  if n = u ∨ n = v then .H else if adj u n && adj v n then .Z else .I

theorem ent_pivot_eq {adj : ℕ → ℕ → Bool} {l : List ℕ} (h : SimpleOn adj l) {u v : ℕ} (huv : adj u v = true) {φ : QState}
    (hφu : NoBit u φ) (hφv : NoBit v φ) :
    entangleAll adj l φ = locOps (fun n => (pivK adj u v n).matrix) l (entangleAll (pivotSwap adj u v) l φ) := by
  have hk := pivot_ket h huv hφu hφv
  have hne : u ≠ v := by rintro rfl; rw [h.irrefl] at huv; cases huv
  have hu := h.mem u v huv
  have hv := h.mem v u (by rw [h.symm]; exact huv)
  have hHH : Ops.H * Ops.H = 1 := by
    have h2 : (1 / (Real.sqrt 2 : ℂ)) * (1 / (Real.sqrt 2 : ℂ)) = 1 / 2 := by
      rw [div_mul_div_comm, ← Complex.ofReal_mul, Real.mul_self_sqrt (by norm_num)]; norm_num
    unfold Ops.H
    rw [Matrix.smul_mul, Matrix.mul_smul, smul_smul, h2, mat2_mul, mat2_smul, mat2_one]
    norm_num
  have h1 : entangleAll adj l φ = op1 Ops.H v (op1 Ops.H u (op1 Ops.H u (op1 Ops.H v (entangleAll adj l φ)))) := by
    rw [op1_mul, hHH, op1_one, op1_mul, hHH, op1_one]
  rw [h1, hk, ← locOps_update_one h.nodup hu, ← locOps_update_one h.nodup hv, locOps_mul _ _ h.nodup, locOps_mul _ _ h.nodup]
  refine locOps_congr (fun n _ => ?_) _
  unfold pivK powB
  by_cases hnu : n = u
  · subst hnu; simp [hne, h.irrefl, Clifford.matrix_H]
  · by_cases hnv : n = v
    · subst hnv; simp [hnu, h.irrefl, Clifford.matrix_H]
    · simp only [hnu, hnv, if_false, or_self, one_mul]
      split <;> simp [Clifford.matrix_Z, Clifford.matrix_I]

theorem ent_pivot {adj : ℕ → ℕ → Bool} {l : List ℕ} (h : SimpleOn adj l) {u v : ℕ} (huv : adj u v = true) {φ : QState}
    (hφu : NoBit u φ) (hφv : NoBit v φ) :
    PhaseEq (entangleAll adj l φ) (locOps (fun n => (pivK adj u v n).matrix) l (entangleAll (pivotSwap adj u v) l φ)) :=
  PhaseEq.of_eq (ent_pivot_eq h huv hφu hφv)

theorem cket_stab (F : ℕ → Clifford) {adj : ℕ → ℕ → Bool} {l : List ℕ} (h : SimpleOn adj l) {u : ℕ} (hu : u ∈ l) {φ : QState}
    (hφ : NoBit u φ) (c : Bool) : PhaseEq (cket F adj l φ) (cket (fun n => (F n).mul (stabK adj u c n)) adj l φ) :=
  cket_absorb h.nodup (PhaseEq.of_eq (ent_stab h hu hφ c))

theorem cket_lc (F : ℕ → Clifford) {adj : ℕ → ℕ → Bool} {l : List ℕ} (h : SimpleOn adj l) {u : ℕ} (hu : u ∈ l) {φ : QState}
    (hφ : NoBit u φ) : PhaseEq (cket F adj l φ) (cket (fun n => (F n).mul (lcK adj u n)) (locComp adj u) l φ) :=
  cket_absorb h.nodup (ent_lc h hu hφ)

theorem cket_pivot (F : ℕ → Clifford) {adj : ℕ → ℕ → Bool} {l : List ℕ} (h : SimpleOn adj l) {u v : ℕ}
    (huv : adj u v = true) {φ : QState} (hφu : NoBit u φ) (hφv : NoBit v φ) :
    PhaseEq (cket F adj l φ) (cket (fun n => (F n).mul (pivK adj u v n)) (pivotSwap adj u v) l φ) :=
  cket_absorb h.nodup (ent_pivot h huv hφu hφv)

theorem locOps_erase (F : ℕ → Mat2) {l : List ℕ} (hl : l.Nodup) {u : ℕ} (hu : u ∈ l) (ψ : QState) :
    locOps F l ψ = op1 (F u) u (locOps F (l.erase u) ψ) := by
  induction l with
  | nil => simp at hu
  | cons n l ih =>
    rw [List.nodup_cons] at hl
    by_cases hn : n = u
    · subst hn; rw [List.erase_cons_head]; rfl
    · have hu' : u ∈ l := by simpa [Ne.symm hn] using hu
      rw [List.erase_cons_tail (by simpa using hn)]
      show op1 (F n) n (locOps F l ψ) = op1 (F u) u (op1 (F n) n (locOps F (l.erase u) ψ))
      rw [ih hl.2 hu', op1_comm _ _ hn]

/-- The computational basis vector `|x⟩`. -/
def ketB (x : Bool) : Bool → ℂ := fun j => if j = x then 1 else 0

theorem op1_braB (x : Bool) (u : ℕ) (ψ : QState) : op1 (bra (ketB x)) u ψ = fun b => ψ (update b u x) := by
  funext b; cases x <;> simp [op1, bra, ketB]

/-- Projecting a node whose gate is diagonal. -/
theorem proj_diag (F : ℕ → Mat2) {adj : ℕ → ℕ → Bool} {l : List ℕ} (h : SimpleOn adj l) {u : ℕ} (hu : u ∈ l) {φ : QState}
    (hφ : NoBit u φ) (hd : Mat2.Diag (F u)) (x : Bool) :
    projOut u (ketB x) (locOps F l (entangleAll adj l φ)) =
      F u x x • locOps (fun n => F n * powB Ops.Z (x && adj u n)) (l.erase u) (entangleAll adj (l.erase u) φ) := by
  have hnd := h.nodup.erase u
  have hue : u ∉ l.erase u := fun hm => (List.Nodup.mem_erase_iff h.nodup).1 hm |>.1 rfl
  have hb : bra (ketB x) * F u = F u x x • bra (ketB x) := by
    obtain ⟨h1, h2⟩ := hd
    cases x
    · apply mat2_ext <;> simp [mul2_apply, bra, ketB, h1]
    · apply mat2_ext <;> simp [mul2_apply, bra, ketB, h2]
  rw [projOut_eq_op1, locOps_erase F h.nodup hu, op1_mul, hb, op1_mat_smul, locOps_op1 _ _ hue, op1_braB]
  congr 1
  rw [← locOps_mul _ _ hnd]
  congr 1
  funext b
  rw [delete_ket h hu hφ b x, locOps_erase _ h.nodup hu]
  have : powB Ops.Z (x && adj u u) = 1 := by rw [h.irrefl]; simp [powB]
  rw [this, op1_one]

/-- Projecting an isolated node. -/
theorem proj_isolated (F : ℕ → Mat2) {adj : ℕ → ℕ → Bool} {l : List ℕ} (h : SimpleOn adj l) {u : ℕ} (hu : u ∈ l) {φ : QState}
    (hφ : NoBit u φ) (hiso : ∀ x, adj u x = false) (v : Bool → ℂ) :
    projOut u v (locOps F l (entangleAll adj l φ)) =
      (star (v false) * (F u false false + F u false true) + star (v true) * (F u true false + F u true true)) •
        locOps F (l.erase u) (entangleAll adj (l.erase u) φ) := by
  have hnd := h.nodup.erase u
  have hue : u ∉ l.erase u := fun hm => (List.Nodup.mem_erase_iff h.nodup).1 hm |>.1 rfl
  have hz : ∀ b x, entangleAll adj l φ (update b u x) = entangleAll adj (l.erase u) φ b := by
    intro b x
    rw [delete_ket h hu hφ b x, locOps_congr (G := fun _ => 1) (fun n _ => by rw [hiso]; simp [powB]), locOps_one]
  rw [projOut_eq_op1, locOps_erase F h.nodup hu, op1_mul, locOps_op1 _ _ hue]
  rw [← locOps_homog F (l.erase u)]
  congr 1
  funext b
  simp only [op1, hz, mul2_apply, bra, Pi.smul_apply, smul_eq_mul]
  ring

theorem prepAll_erase {l : List ℕ} {u : ℕ} (hu : u ∈ l) :
    prepAll l = (1 / (Real.sqrt 2 : ℂ)) • prepAll (l.erase u) := by
  funext b
  show _ = (1 / (Real.sqrt 2 : ℂ)) * prepAll (l.erase u) b
  rw [prepAll_apply, prepAll_apply, List.length_erase_of_mem hu, ← pow_succ']
  congr 1
  have := List.length_pos_of_mem hu
  omega

theorem entangleAll_smul (adj : ℕ → ℕ → Bool) (l : List ℕ) (c : ℂ) (φ : QState) :
    entangleAll adj l (c • φ) = c • entangleAll adj l φ := by
  funext b
  show _ = c * entangleAll adj l φ b
  rw [entangleAll_apply, entangleAll_apply]
  show sgn _ * (c * φ b) = _
  ring

end Graphix
