import Verif.Quantum.State
import Verif.Spec.Semantics
import Mathlib.Data.Finset.Powerset

/-!
# Specification: density operators

A density operator of some nodes is a function of two basis states (bra and ket). Textbook notions: `F ρ F†`, operators on several
nodes, Kraus channels, partial trace, trace, statistical mixtures.
-/

namespace Graphix

/-- Unnormalised density operators. -/
abbrev QDens := Basis → Basis → ℂ

/-- `|ψ⟩⟨ψ|`. -/
noncomputable def ketBra (ψ : QState) : QDens := fun b b' => ψ b * star (ψ b')

/-- `F ρ`: `F` on the rows. -/
def leftBy (F : QState → QState) (ρ : QDens) : QDens := fun b b' => F (fun c => ρ c b') b

/-- `ρ F†`: `F`, conjugated, on the columns. -/
noncomputable def rightBy (F : QState → QState) (ρ : QDens) : QDens := fun b b' => star (F (fun c => star (ρ b c)) b')

/-- `F ρ F†`. -/
noncomputable def conjBy (F : QState → QState) (ρ : QDens) : QDens := rightBy F (leftBy F ρ)

/-- The lists of `n` bits. -/
def allBits : ℕ → Finset (List Bool)
  | 0 => {[]}
  | n + 1 => (allBits n).image (false :: ·) ∪ (allBits n).image (true :: ·)

/-- The basis state `b` with the bits `s` at the nodes `nodes`. -/
def setBits (b : Basis) (nodes : List ℕ) (s : List Bool) : Basis := fun m =>
  if m ∈ nodes then s.getD (nodes.idxOf m) false else b m

/-- The operator `U` on the nodes `nodes` (first node: first bit of the index of `U`). -/
noncomputable def opN (U : List Bool → List Bool → ℂ) (nodes : List ℕ) (ψ : QState) : QState := fun b =>
  ∑ s ∈ allBits nodes.length, U (nodes.map b) s * ψ (setBits b nodes s)

/-- The channel `ρ ↦ Σ |c|² K ρ K†` on the nodes `nodes`. -/
noncomputable def krausN (ch : List (ℂ × (List Bool → List Bool → ℂ))) (nodes : List ℕ) (ρ : QDens) : QDens :=
  (ch.map fun k => (k.1 * star k.1) • conjBy (opN k.2 nodes) ρ).sum

/-- `Σ |c|² K† K = 1`. -/
def KrausComplete (n : ℕ) (ch : List (ℂ × (List Bool → List Bool → ℂ))) : Prop :=
  ∀ s ∈ allBits n, ∀ t ∈ allBits n,
    (ch.map fun k => k.1 * star k.1 * ∑ u ∈ allBits n, star (k.2 u t) * k.2 u s).sum = if s = t then 1 else 0

/-- The partial trace over the nodes `nodes`. -/
noncomputable def traceOutN (nodes : List ℕ) (ρ : QDens) : QDens := fun b b' =>
  ∑ s ∈ allBits nodes.length, ρ (setBits b nodes s) (setBits b' nodes s)

/-- The trace of a density operator of the nodes `l`: sum over the computational basis. -/
noncomputable def traceOn (l : List ℕ) (ρ : QDens) : ℂ :=
  ∑ S ∈ l.toFinset.powerset, ρ (fun n => decide (n ∈ S)) (fun n => decide (n ∈ S))

/-- `ρ` is a mixture of (unnormalised) pure states: it is positive semi-definite. -/
def IsMixture (ρ : QDens) : Prop := ∃ L : List QState, ρ = (L.map ketBra).sum

/-- Linear maps on states. -/
structure Lin (F : QState → QState) : Prop where
  add : ∀ ψ φ, F (ψ + φ) = F ψ + F φ
  smul : Homog F

/-- Density matrices: mixtures with trace 1. -/
structure IsDensity (l : List ℕ) (ρ : QDens) : Prop where
  mixture : IsMixture ρ
  trace : traceOn l ρ = 1

/-! ### Basic facts -/

theorem mem_allBits {n : ℕ} {l : List Bool} : l ∈ allBits n ↔ l.length = n := by
  induction n generalizing l with
  | zero => simp [allBits]
  | succ n ih =>
    cases l with
    | nil => simp [allBits]
    | cons x l => cases x <;> simp [allBits, ih]

theorem Lin.zero {F : QState → QState} (h : Lin F) : F 0 = 0 := by
  have := h.smul 0 0; simpa using this

theorem Lin.sum {F : QState → QState} (h : Lin F) {ι : Type} (s : Finset ι) (f : ι → QState) :
    F (∑ i ∈ s, f i) = ∑ i ∈ s, F (f i) := by
  classical
  induction s using Finset.induction_on with
  | empty => simp [h.zero]
  | insert a s ha ih => rw [Finset.sum_insert ha, Finset.sum_insert ha, h.add, ih]

theorem Lin.op1 (U : Mat2) (n : ℕ) : Lin (op1 U n) := ⟨op1_add U n, op1_smul U n⟩
theorem Lin.cz (u v : ℕ) : Lin (cz u v) := ⟨fun ψ φ => by funext b; simp [Graphix.cz, mul_add], cz_smul u v⟩
theorem Lin.prep (n : ℕ) (v : Bool → ℂ) : Lin (prep n v) := ⟨fun ψ φ => by funext b; simp [Graphix.prep, mul_add], prep_smul n v⟩
theorem Lin.projOut (n : ℕ) (v : Bool → ℂ) : Lin (projOut n v) := Lin.op1 (bra v) n
theorem Lin.id : Lin (fun ψ => ψ) := ⟨fun _ _ => rfl, fun _ _ => rfl⟩
theorem Lin.comp {F G : QState → QState} (hF : Lin F) (hG : Lin G) : Lin (fun ψ => F (G ψ)) :=
  ⟨fun ψ φ => by simp only [hG.add, hF.add], fun c ψ => by rw [hG.smul, hF.smul]⟩

theorem Lin.opN (U : List Bool → List Bool → ℂ) (nodes : List ℕ) : Lin (opN U nodes) where
  add := fun ψ φ => by
    funext b
    simp only [Graphix.opN, Pi.add_apply, mul_add, Finset.sum_add_distrib]
  smul := fun c ψ => by
    funext b
    simp only [Graphix.opN, Pi.smul_apply, smul_eq_mul, Finset.mul_sum]
    exact Finset.sum_congr rfl (fun s _ => by ring)

theorem Command.sem_lin (r : ℕ → Bool) (c : Command) : Lin (c.sem r) := by
  cases c with
  | N n s => exact Lin.prep n s.vec
  | M n m s t => exact (Lin.projOut _ _).comp ((Lin.op1 _ _).comp (Lin.op1 _ _))
  | E u v => exact Lin.cz u v
  | C n c => exact Lin.op1 _ _
  | X n d => exact Lin.op1 _ _
  | Z n d => exact Lin.op1 _ _
  | S n d => exact Lin.id
  | T => exact Lin.id

theorem leftBy_add {F : QState → QState} (h : Lin F) (ρ σ : QDens) : leftBy F (ρ + σ) = leftBy F ρ + leftBy F σ := by
  funext b b'
  show F (fun c => ρ c b' + σ c b') b = F (fun c => ρ c b') b + F (fun c => σ c b') b
  rw [show (fun c => ρ c b' + σ c b') = (fun c => ρ c b') + (fun c => σ c b') from rfl, h.add]; rfl

theorem rightBy_add {F : QState → QState} (h : Lin F) (ρ σ : QDens) : rightBy F (ρ + σ) = rightBy F ρ + rightBy F σ := by
  funext b b'
  show star (F (fun c => star (ρ b c + σ b c)) b') = star (F (fun c => star (ρ b c)) b') + star (F (fun c => star (σ b c)) b')
  rw [show (fun c => star (ρ b c + σ b c)) = (fun c => star (ρ b c)) + (fun c => star (σ b c)) from by funext c; simp, h.add]
  simp

theorem conjBy_add {F : QState → QState} (h : Lin F) (ρ σ : QDens) : conjBy F (ρ + σ) = conjBy F ρ + conjBy F σ := by
  unfold conjBy; rw [leftBy_add h, rightBy_add h]

theorem conjBy_smul {F : QState → QState} (h : Homog F) (c : ℂ) (ρ : QDens) : conjBy F (c • ρ) = c • conjBy F ρ := by
  funext b b'
  show star (F (fun d => star (F (fun e => c * ρ e d) b)) b') = c * star (F (fun d => star (F (fun e => ρ e d) b)) b')
  have e1 : ∀ d, F (fun e => c * ρ e d) b = c * F (fun e => ρ e d) b := by
    intro d
    rw [show (fun e => c * ρ e d) = c • (fun e => ρ e d) from rfl, h]; rfl
  simp only [e1, star_mul']
  rw [show (fun d => star c * star (F (fun e => ρ e d) b)) = star c • (fun d => star (F (fun e => ρ e d) b)) from rfl, h]
  simp

theorem conjBy_zero {F : QState → QState} (h : Lin F) : conjBy F 0 = 0 := by
  have := conjBy_smul h.smul 0 0; simpa using this

theorem conjBy_ketBra {F : QState → QState} (h : Homog F) (ψ : QState) : conjBy F (ketBra ψ) = ketBra (F ψ) := by
  funext b b'
  show star (F (fun d => star (F (fun e => ψ e * star (ψ d)) b)) b') = F ψ b * star (F ψ b')
  have e1 : ∀ d, F (fun e => ψ e * star (ψ d)) b = star (ψ d) * F ψ b := by
    intro d
    rw [show (fun e => ψ e * star (ψ d)) = star (ψ d) • ψ from by funext e; simp [mul_comm], h]; rfl
  simp only [e1, star_mul', star_star]
  rw [show (fun d => ψ d * star (F ψ b)) = star (F ψ b) • ψ from by funext e; simp [mul_comm], h]
  simp

theorem conjBy_list_sum {F : QState → QState} (h : Lin F) (L : List QDens) : conjBy F L.sum = (L.map (conjBy F)).sum := by
  induction L with
  | nil => simpa using conjBy_zero h
  | cons a L ih => rw [List.sum_cons, conjBy_add h, ih]; simp

theorem conjBy_mixture {F : QState → QState} (h : Lin F) (L : List QState) :
    conjBy F (L.map ketBra).sum = ((L.map F).map ketBra).sum := by
  rw [conjBy_list_sum h, List.map_map, List.map_map]
  congr 1
  exact List.map_congr_left (fun ψ _ => conjBy_ketBra h.smul ψ)

theorem IsMixture.conjBy {F : QState → QState} (h : Lin F) {ρ : QDens} (hρ : IsMixture ρ) : IsMixture (conjBy F ρ) := by
  obtain ⟨L, rfl⟩ := hρ
  exact ⟨L.map F, conjBy_mixture h L⟩

theorem ketBra_phase {ψ φ : QState} (h : PhaseEq ψ φ) : ketBra ψ = ketBra φ := by
  obtain ⟨c, hc, rfl⟩ := h
  funext b b'
  have : c * star c = 1 := by
    have h2 : c * star c = ((Complex.normSq c : ℝ) : ℂ) := by rw [Complex.normSq_eq_conj_mul_self, mul_comm]; rfl
    rw [h2, Complex.normSq_eq_norm_sq, hc]; norm_num
  simp only [ketBra, Pi.smul_apply, smul_eq_mul, star_mul']
  linear_combination φ b * star (φ b') * this

/-- Maps that are equal up to phases act in the same way on mixtures. -/
theorem conjBy_phase {F G : QState → QState} (hF : Lin F) (hG : Lin G) (h : ∀ ψ, PhaseEq (F ψ) (G ψ)) {ρ : QDens}
    (hρ : IsMixture ρ) : conjBy F ρ = conjBy G ρ := by
  obtain ⟨L, rfl⟩ := hρ
  rw [conjBy_mixture hF, conjBy_mixture hG, List.map_map, List.map_map]
  congr 1
  exact List.map_congr_left (fun ψ _ => ketBra_phase (h ψ))

/-- Conjugation by a composition. -/
theorem conjBy_comp {F G : QState → QState} (hF : Lin F) (hG : Lin G) {ρ : QDens} (hρ : IsMixture ρ) :
    conjBy (fun ψ => F (G ψ)) ρ = conjBy F (conjBy G ρ) := by
  obtain ⟨L, rfl⟩ := hρ
  rw [conjBy_mixture (hF.comp hG), conjBy_mixture hG, conjBy_mixture hF, List.map_map, List.map_map, List.map_map]
  rfl

theorem IsMixture.add {ρ σ : QDens} (h : IsMixture ρ) (h' : IsMixture σ) : IsMixture (ρ + σ) := by
  obtain ⟨L, rfl⟩ := h; obtain ⟨L', rfl⟩ := h'
  exact ⟨L ++ L', by simp⟩

theorem IsMixture.zero : IsMixture 0 := ⟨[], rfl⟩

theorem ketBra_smul (c : ℂ) (ψ : QState) : ketBra (c • ψ) = (c * star c) • ketBra ψ := by
  funext b b'; simp [ketBra]; ring

theorem IsMixture.smul {ρ : QDens} (h : IsMixture ρ) (c : ℝ) (hc : 0 ≤ c) : IsMixture ((c : ℂ) • ρ) := by
  obtain ⟨L, rfl⟩ := h
  refine ⟨L.map (fun ψ => (Real.sqrt c : ℂ) • ψ), ?_⟩
  rw [List.smul_sum, List.map_map, List.map_map]
  congr 1
  apply List.map_congr_left
  intro ψ _
  simp only [Function.comp]
  rw [ketBra_smul]
  congr 1
  rw [show star (Real.sqrt c : ℂ) = (Real.sqrt c : ℂ) from Complex.conj_ofReal _, ← Complex.ofReal_mul, Real.mul_self_sqrt hc]

theorem IsMixture.list_sum {L : List QDens} (h : ∀ ρ ∈ L, IsMixture ρ) : IsMixture L.sum := by
  induction L with
  | nil => exact IsMixture.zero
  | cons a L ih => rw [List.sum_cons]; exact (h a (by simp)).add (ih (fun ρ hρ => h ρ (by simp [hρ])))

theorem IsMixture.kraus {ρ : QDens} (h : IsMixture ρ) (ch : List (ℂ × (List Bool → List Bool → ℂ))) (nodes : List ℕ) :
    IsMixture (krausN ch nodes ρ) := by
  apply IsMixture.list_sum
  intro σ hσ
  obtain ⟨k, -, rfl⟩ := List.mem_map.1 hσ
  have e : k.1 * star k.1 = ((Complex.normSq k.1 : ℝ) : ℂ) := by
    rw [Complex.normSq_eq_conj_mul_self, mul_comm]; rfl
  rw [e]
  exact (h.conjBy (Lin.opN k.2 nodes)).smul _ (Complex.normSq_nonneg _)

theorem traceOn_add (l : List ℕ) (ρ σ : QDens) : traceOn l (ρ + σ) = traceOn l ρ + traceOn l σ := by
  simp [traceOn, Finset.sum_add_distrib]

theorem traceOn_smul (l : List ℕ) (c : ℂ) (ρ : QDens) : traceOn l (c • ρ) = c * traceOn l ρ := by
  simp [traceOn, Finset.mul_sum]

theorem traceOn_perm {l l' : List ℕ} (h : l.Perm l') (ρ : QDens) : traceOn l ρ = traceOn l' ρ := by
  unfold traceOn; rw [List.toFinset_eq_of_perm _ _ h]

/-- The trace of a mixture is a non-negative real number. -/
theorem IsMixture.trace_nonneg {ρ : QDens} (h : IsMixture ρ) (l : List ℕ) : ∃ x : ℝ, 0 ≤ x ∧ traceOn l ρ = x := by
  obtain ⟨L, rfl⟩ := h
  induction L with
  | nil => exact ⟨0, le_refl _, by simp [traceOn]⟩
  | cons ψ L ih =>
    obtain ⟨x, hx, he⟩ := ih
    refine ⟨(∑ S ∈ l.toFinset.powerset, Complex.normSq (ψ (fun n => decide (n ∈ S)))) + x,
      add_nonneg (Finset.sum_nonneg (fun _ _ => Complex.normSq_nonneg _)) hx, ?_⟩
    rw [List.map_cons, List.sum_cons, traceOn_add, he]
    push_cast
    congr 1
    exact Finset.sum_congr rfl (fun S _ => by rw [ketBra, Complex.normSq_eq_conj_mul_self, mul_comm]; rfl)

end Graphix
