import Verif.Spec.Flow
import Verif.Spec.Semantics

/-! Products of single-qubit operators, Pauli strings on graph states. -/

namespace Graphix

open Function

/-- XOR of `f` over a list. -/
def xorl {α : Type} (l : List α) (f : α → Bool) : Bool := l.foldr (fun n acc => Bool.xor (f n) acc) false

@[simp] theorem xorl_nil {α : Type} (f : α → Bool) : xorl [] f = false := rfl
@[simp] theorem xorl_cons {α : Type} (a : α) (l : List α) (f : α → Bool) :
    xorl (a :: l) f = Bool.xor (f a) (xorl l f) := rfl

theorem xorl_append {α : Type} (l l' : List α) (f : α → Bool) : xorl (l ++ l') f = Bool.xor (xorl l f) (xorl l' f) := by
  induction l with
  | nil => simp
  | cons a l ih => simp [ih]

theorem xorl_congr {α : Type} {l : List α} {f g : α → Bool} (h : ∀ a ∈ l, f a = g a) : xorl l f = xorl l g := by
  induction l with
  | nil => rfl
  | cons a l ih => rw [xorl_cons, xorl_cons, h a (by simp), ih fun b hb => h b (by simp [hb])]

theorem xorl_false {α : Type} (l : List α) : xorl l (fun _ => false) = false := by
  induction l with
  | nil => rfl
  | cons a l ih => simp [ih]

theorem xorl_xor {α : Type} (l : List α) (f g : α → Bool) :
    xorl l (fun a => Bool.xor (f a) (g a)) = Bool.xor (xorl l f) (xorl l g) := by
  induction l with
  | nil => rfl
  | cons a l ih =>
    simp only [xorl_cons, ih]
    cases f a <;> cases g a <;> cases xorl l f <;> cases xorl l g <;> rfl

theorem xorl_and {α : Type} (l : List α) (c : Bool) (f : α → Bool) :
    xorl l (fun a => c && f a) = (c && xorl l f) := by
  cases c <;> simp [xorl_false]

theorem xorl_and_right {α : Type} (l : List α) (c : Bool) (f : α → Bool) :
    xorl l (fun a => f a && c) = (xorl l f && c) := by
  cases c <;> simp [xorl_false]

theorem xorl_comm {α β : Type} (l : List α) (l' : List β) (f : α → β → Bool) :
    xorl l (fun a => xorl l' (f a)) = xorl l' (fun b => xorl l (fun a => f a b)) := by
  induction l with
  | nil => simp [xorl_false]
  | cons a l ih => simp only [xorl_cons, ih, xorl_xor]

theorem xorl_single {l : List ℕ} (hl : l.Nodup) {u : ℕ} (hu : u ∈ l) (f : ℕ → Bool) :
    xorl l (fun v => decide (u = v) && f v) = f u := by
  induction l with
  | nil => simp at hu
  | cons a l ih =>
    rw [List.nodup_cons] at hl
    by_cases h : u = a
    · subst h
      rw [xorl_cons, xorl_congr (g := fun _ => false), xorl_false]
      · simp
      · intro v hv
        have : u ≠ v := by rintro rfl; exact hl.1 hv
        simp [this]
    · rw [xorl_cons, ih hl.2 (by simpa [h] using hu)]; simp [h]

theorem xorl_filter_length {α : Type} (l : List α) (f : α → Bool) : xorl l f = decide (Odd (l.filter f).length) := by
  induction l with
  | nil => simp
  | cons a l ih =>
    rw [xorl_cons, ih, List.filter_cons]
    cases f a
    · simp
    · by_cases h : Odd (l.filter f).length <;> simp [Nat.odd_add_one, ← Nat.not_odd_iff_even, h]

/-- Sign of a bit. -/
noncomputable def sgn (b : Bool) : ℂ := if b then -1 else 1

@[simp] theorem sgn_false : sgn false = 1 := rfl
@[simp] theorem sgn_true : sgn true = -1 := rfl

theorem sgn_xor (a b : Bool) : sgn (Bool.xor a b) = sgn a * sgn b := by cases a <;> cases b <;> simp

theorem sgn_norm (a : Bool) : ‖sgn a‖ = 1 := by cases a <;> simp

/-- Apply an operator to each node of the list. -/
noncomputable def locOps (F : ℕ → Mat2) : List ℕ → QState → QState
  | [], ψ => ψ
  | n :: l, ψ => op1 (F n) n (locOps F l ψ)

theorem locOps_op1 (F : ℕ → Mat2) (U : Mat2) {n : ℕ} {l : List ℕ} (h : n ∉ l) (ψ : QState) :
    op1 U n (locOps F l ψ) = locOps F l (op1 U n ψ) := by
  induction l with
  | nil => rfl
  | cons a l ih =>
    have h1 : n ≠ a := by rintro rfl; simp at h
    have h2 : n ∉ l := fun hm => h (by simp [hm])
    unfold locOps
    rw [op1_comm _ _ h1, ih h2]

theorem locOps_congr {F G : ℕ → Mat2} {l : List ℕ} (h : ∀ n ∈ l, F n = G n) (ψ : QState) :
    locOps F l ψ = locOps G l ψ := by
  induction l with
  | nil => rfl
  | cons a l ih => unfold locOps; rw [h a (by simp), ih fun n hn => h n (by simp [hn])]

theorem locOps_mul (F G : ℕ → Mat2) {l : List ℕ} (hl : l.Nodup) (ψ : QState) :
    locOps F l (locOps G l ψ) = locOps (fun n => F n * G n) l ψ := by
  induction l with
  | nil => rfl
  | cons a l ih =>
    rw [List.nodup_cons] at hl
    simp only [locOps]
    rw [← locOps_op1 F _ hl.1, ih hl.2, op1_mul]

theorem locOps_homog (F : ℕ → Mat2) (l : List ℕ) : Homog (locOps F l) := by
  induction l with
  | nil => intro c ψ; rfl
  | cons a l ih => intro c ψ; unfold locOps; rw [ih, op1_smul]

theorem locOps_one (l : List ℕ) (ψ : QState) : locOps (fun _ => 1) l ψ = ψ := by
  induction l with
  | nil => rfl
  | cons a l ih => unfold locOps; rw [op1_one, ih]

theorem op1_locOps (F : ℕ → Mat2) (U : Mat2) {n : ℕ} {l : List ℕ} (hl : l.Nodup) (hn : n ∈ l) (ψ : QState) :
    op1 U n (locOps F l ψ) = locOps (update F n (U * F n)) l ψ := by
  induction l with
  | nil => simp at hn
  | cons a l ih =>
    rw [List.nodup_cons] at hl
    unfold locOps
    by_cases h : n = a
    · subst h
      rw [op1_mul, update_self]
      congr 1
      apply locOps_congr
      intro k hk
      rw [update_of_ne]
      rintro rfl; exact hl.1 hk
    · rw [op1_comm _ _ h, ih hl.2 (by simpa [h] using hn), update_of_ne (Ne.symm h)]

theorem locOps_phase {F G : ℕ → Mat2} {l : List ℕ} (h : ∀ n ∈ l, MatPhaseEq (F n) (G n)) :
    OpPhaseEq (locOps F l) (locOps G l) := by
  induction l with
  | nil => exact OpPhaseEq.refl _
  | cons a l ih =>
    have h3 := OpPhaseEq.comp (Homog.op1 (F a) a) ((h a (by simp)).opPhase a) (ih fun n hn => h n (by simp [hn]))
    exact h3

/-- `X^a Z^c`. -/
noncomputable def pauliXZ (a c : Bool) : Mat2 := powB Ops.X a * powB Ops.Z c

theorem op1_pauliXZ (a c : Bool) (n : ℕ) (ψ : QState) (b : Basis) :
    op1 (pauliXZ a c) n ψ b = sgn (c && Bool.xor (b n) a) * ψ (update b n (Bool.xor (b n) a)) := by
  unfold op1 pauliXZ
  cases a <;> cases c <;> cases h : b n <;>
    simp [powB, mul2_apply, Ops.X, Ops.Z]

/-- Flip the bits `α` of the nodes of the list. -/
def flipOn (l : List ℕ) (α : ℕ → Bool) (b : Basis) : Basis := fun n => if n ∈ l then Bool.xor (b n) (α n) else b n

theorem locOps_pauli (α β : ℕ → Bool) {l : List ℕ} (hl : l.Nodup) (ψ : QState) (b : Basis) :
    locOps (fun n => pauliXZ (α n) (β n)) l ψ b =
      sgn (xorl l fun n => β n && Bool.xor (b n) (α n)) * ψ (flipOn l α b) := by
  induction l generalizing b with
  | nil =>
    have : flipOn [] α b = b := by funext n; simp [flipOn]
    simp [locOps, this]
  | cons a l ih =>
    rw [List.nodup_cons] at hl
    unfold locOps
    rw [op1_pauliXZ, ih hl.2, xorl_cons, sgn_xor, mul_assoc]
    congr 2
    · congr 1
      apply xorl_congr
      intro n hn
      rw [update_of_ne]
      rintro rfl; exact hl.1 hn
    · congr 1
      funext n
      unfold flipOn
      by_cases h : n = a
      · subst h; simp [hl.1]
      · simp [h]

/-- The controlled Zs of a list of edges. -/
noncomputable def czList (es : List (ℕ × ℕ)) (ψ : QState) : QState := es.foldl (fun ψ e => cz e.1 e.2 ψ) ψ

theorem czList_apply (es : List (ℕ × ℕ)) (ψ : QState) (b : Basis) :
    czList es ψ b = sgn (xorl es fun e => b e.1 && b e.2) * ψ b := by
  unfold czList
  induction es generalizing ψ with
  | nil => simp
  | cons e es ih =>
    rw [List.foldl_cons, ih, xorl_cons, sgn_xor]
    unfold cz sgn
    ring

/-- The nodes joined to `v`, counted with the parity of their bit. -/
def oddp (es : List (ℕ × ℕ)) (α : ℕ → Bool) (v : ℕ) : Bool :=
  xorl es fun e => Bool.xor (decide (e.1 = v) && α e.2) (decide (e.2 = v) && α e.1)

theorem cross_eq {es : List (ℕ × ℕ)} {l : List ℕ} (hl : l.Nodup) (he : ∀ e ∈ es, e.1 ∈ l ∧ e.2 ∈ l) (a b : ℕ → Bool) :
    (xorl es fun e => Bool.xor (a e.1 && b e.2) (b e.1 && a e.2)) = xorl l fun v => oddp es a v && b v := by
  have h1 : (xorl l fun v => oddp es a v && b v) =
      xorl l fun v => xorl es fun e => Bool.xor (decide (e.1 = v) && (a e.2 && b v)) (decide (e.2 = v) && (a e.1 && b v)) := by
    apply xorl_congr
    intro v _
    unfold oddp
    rw [← xorl_and_right]
    apply xorl_congr
    intro e _
    cases decide (e.1 = v) <;> cases decide (e.2 = v) <;> cases a e.1 <;> cases a e.2 <;> cases b v <;> rfl
  rw [h1, xorl_comm]
  apply xorl_congr
  intro e hm
  rw [xorl_xor, xorl_single hl (he e hm).1, xorl_single hl (he e hm).2]
  cases a e.1 <;> cases a e.2 <;> cases b e.1 <;> cases b e.2 <;> rfl

/-- A product of stabilizers leaves the graph state unchanged, up to sign: `X` on the nodes `α` (none of them an input)
and `Z` on their odd neighbourhood. -/
theorem stabilizer {es : List (ℕ × ℕ)} {l : List ℕ} (hl : l.Nodup) (he : ∀ e ∈ es, e.1 ∈ l ∧ e.2 ∈ l) (α : ℕ → Bool)
    : ∃ c : ℂ, ‖c‖ = 1 ∧ ∀ φ : QState, (∀ b, φ (flipOn l α b) = φ b) →
    locOps (fun n => pauliXZ (α n) (oddp es α n)) l (czList es φ) = c • czList es φ := by
  refine ⟨sgn (Bool.xor (xorl l fun v => oddp es α v && α v) (xorl es fun e => α e.1 && α e.2)), sgn_norm _, ?_⟩
  intro φ hφ
  funext b
  rw [locOps_pauli _ _ hl, Pi.smul_apply, smul_eq_mul, czList_apply, czList_apply, hφ]
  have hf : ∀ n ∈ l, flipOn l α b n = Bool.xor (b n) (α n) := fun n hn => by simp [flipOn, hn]
  have h1 : (xorl es fun e => flipOn l α b e.1 && flipOn l α b e.2) =
      Bool.xor (Bool.xor (xorl es fun e => b e.1 && b e.2) (xorl es fun e => α e.1 && α e.2))
        (xorl l fun v => oddp es α v && b v) := by
    rw [← cross_eq hl he α b, ← xorl_xor, ← xorl_xor]
    apply xorl_congr
    intro e hm
    rw [hf _ (he e hm).1, hf _ (he e hm).2]
    cases b e.1 <;> cases b e.2 <;> cases α e.1 <;> cases α e.2 <;> rfl
  have h2 : (xorl l fun n => oddp es α n && Bool.xor (b n) (α n)) =
      Bool.xor (xorl l fun v => oddp es α v && b v) (xorl l fun v => oddp es α v && α v) := by
    rw [← xorl_xor]
    apply xorl_congr
    intro n _
    cases oddp es α n <;> cases b n <;> cases α n <;> rfl
  rw [h1, h2, sgn_xor, sgn_xor, sgn_xor, sgn_xor]
  have h3 : sgn (xorl l fun v => oddp es α v && b v) * sgn (xorl l fun v => oddp es α v && b v) = 1 := by
    cases (xorl l fun v => oddp es α v && b v) <;> simp
  linear_combination (sgn (xorl l fun v => oddp es α v && α v) * sgn (xorl es fun e => α e.1 && α e.2) *
    sgn (xorl es fun e => b e.1 && b e.2) * φ b) * h3

/-- `oddp` is the odd neighbourhood. -/
theorem oddp_eq (og : OpenGraph) (honce : og.edges.Pairwise fun e e' => e ≠ e' ∧ e ≠ (e'.2, e'.1))
    (hloop : ∀ e ∈ og.edges, e.1 ≠ e.2) (s : Finset ℕ) (v : ℕ) [Decidable (og.InOdd s v)] :
    oddp og.edges (fun w => decide (w ∈ s)) v = decide (og.InOdd s v) := by
  -- the list of the other ends of the edges at `v`
  let g : ℕ × ℕ → Option ℕ := fun e => if e.1 = v then some e.2 else if e.2 = v then some e.1 else none
  have h1 : ∀ es : List (ℕ × ℕ), (∀ e ∈ es, e.1 ≠ e.2) →
      oddp es (fun w => decide (w ∈ s)) v = xorl (es.filterMap g) fun w => decide (w ∈ s) := by
    intro es
    induction es with
    | nil => intro _; rfl
    | cons e es ih =>
      intro hlp
      have hne := hlp e (by simp)
      have hih := ih fun e' he' => hlp e' (by simp [he'])
      unfold oddp at hih ⊢
      rw [xorl_cons, hih, List.filterMap_cons]
      by_cases ha : e.1 = v
      · have hb : e.2 ≠ v := fun h => hne (ha.trans h.symm)
        have hg : g e = some e.2 := by simp [g, ha]
        rw [hg]; simp [ha, hb]
      · by_cases hb : e.2 = v
        · have hg : g e = some e.1 := by simp [g, ha, hb]
          rw [hg]; simp [ha, hb]
        · have hg : g e = none := by simp [g, ha, hb]
          rw [hg]; simp [ha, hb]
  have h2 : ∀ es : List (ℕ × ℕ), (es.Pairwise fun e e' => e ≠ e' ∧ e ≠ (e'.2, e'.1)) → (es.filterMap g).Nodup := by
    intro es
    induction es with
    | nil => intro _; simp
    | cons e es ih =>
      intro hp
      rw [List.pairwise_cons] at hp
      rw [List.filterMap_cons]
      cases hg : g e with
      | none => exact ih hp.2
      | some w =>
        rw [List.nodup_cons]
        refine ⟨?_, ih hp.2⟩
        intro hm
        obtain ⟨e', he', hg'⟩ := List.mem_filterMap.1 hm
        have := hp.1 e' he'
        have key : ∀ e : ℕ × ℕ, g e = some w → e = (v, w) ∨ e = (w, v) := by
          intro e h
          simp only [g] at h
          by_cases ha : e.1 = v
          · rw [if_pos ha] at h; simp only [Option.some.injEq] at h
            exact Or.inl (Prod.ext ha h)
          · rw [if_neg ha] at h
            by_cases hb : e.2 = v
            · rw [if_pos hb] at h; simp only [Option.some.injEq] at h
              exact Or.inr (Prod.ext h hb)
            · rw [if_neg hb] at h; simp at h
        rcases key e hg with rfl | rfl <;> rcases key e' hg' with rfl | rfl <;> simp at this
  rw [h1 _ hloop, xorl_filter_length]
  have h3 : (og.edges.filterMap g).toFinset = og.nbrs v := rfl
  have hmem : ∀ w, w ∈ og.edges.filterMap g ↔ og.Adj v w := by
    intro w
    simp only [List.mem_filterMap, Prod.exists, OpenGraph.Adj, g]
    constructor
    · rintro ⟨a, b, hm, h⟩
      by_cases ha : a = v
      · simp only [ha, if_true, Option.some.injEq] at h; subst h; subst ha; exact Or.inl hm
      · by_cases hb : b = v
        · simp only [ha, hb, if_true, if_false, Option.some.injEq] at h; subst h; subst hb; exact Or.inr hm
        · simp [ha, hb] at h
    · rintro (h | h)
      · exact ⟨v, w, h, by simp⟩
      · by_cases hw : w = v
        · subst hw; exact ⟨w, w, h, by simp⟩
        · exact ⟨w, v, h, by simp [hw]⟩
  have hcard : ((og.edges.filterMap g).filter fun w => decide (w ∈ s)).length = (s.filter (og.Adj v)).card := by
    rw [← List.toFinset_card_of_nodup ((h2 _ honce).filter _)]
    congr 1
    ext w
    simp only [List.mem_toFinset, List.mem_filter, hmem, decide_eq_true_eq, Finset.mem_filter]
    tauto
  rw [hcard]
  unfold OpenGraph.InOdd
  congr

theorem oddp_xorl (es : List (ℕ × ℕ)) {ι : Type} (us : List ι) (r : ι → Bool) (p : ι → ℕ → Bool) (v : ℕ) :
    oddp es (fun w => xorl us fun u => r u && p u w) v = xorl us fun u => r u && oddp es (p u) v := by
  unfold oddp
  have : ∀ u, (r u && xorl es fun e => Bool.xor (decide (e.1 = v) && p u e.2) (decide (e.2 = v) && p u e.1)) =
      xorl es fun e => r u && Bool.xor (decide (e.1 = v) && p u e.2) (decide (e.2 = v) && p u e.1) :=
    fun u => (xorl_and _ _ _).symm
  simp only [this]
  rw [xorl_comm]
  apply xorl_congr
  intro e _
  rw [← xorl_and, ← xorl_and, ← xorl_xor]
  apply xorl_congr
  intro u _
  cases r u <;> simp

end Graphix
