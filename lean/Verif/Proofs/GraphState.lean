import Verif.Spec.GraphState
import Verif.Proofs.LocalOps

/-! # Graph states: local complementation, pivoting, stabilizers, deletion of a node -/

namespace Graphix

open Function

/-- The parity of the edges with both ends set. -/
def edgePar (adj : ℕ → ℕ → Bool) (l : List ℕ) (b : Basis) : Bool := xorl (edgesOf adj l) fun e => b e.1 && b e.2

theorem entangleAll_apply (adj : ℕ → ℕ → Bool) (l : List ℕ) (φ : QState) (b : Basis) :
    entangleAll adj l φ b = sgn (edgePar adj l b) * φ b := czList_apply (edgesOf adj l) φ b

theorem xorl_map {α β : Type} (l : List α) (h : α → β) (f : β → Bool) : xorl (l.map h) f = xorl l fun a => f (h a) := by
  induction l with
  | nil => rfl
  | cons a l ih => simp [ih]

theorem xorl_filter {α : Type} (l : List α) (p f : α → Bool) : xorl (l.filter p) f = xorl l fun a => p a && f a := by
  induction l with
  | nil => rfl
  | cons a l ih =>
    cases h : p a
    · rw [List.filter_cons_of_neg (by simp [h])]; simp [ih, h]
    · rw [List.filter_cons_of_pos h]; simp [ih, h]

theorem xorl_perm {α : Type} {l l' : List α} (h : l.Perm l') (f : α → Bool) : xorl l f = xorl l' f := by
  induction h with
  | nil => rfl
  | cons x _ ih => simp [ih]
  | swap x y l => simp only [xorl_cons]; cases f x <;> cases f y <;> simp
  | trans _ _ h1 h2 => exact h1.trans h2

theorem edgePar_nil (adj : ℕ → ℕ → Bool) (b : Basis) : edgePar adj [] b = false := rfl

theorem edgePar_cons (adj : ℕ → ℕ → Bool) (u : ℕ) (l : List ℕ) (b : Basis) :
    edgePar adj (u :: l) b = Bool.xor (b u && xorl l fun v => adj u v && b v) (edgePar adj l b) := by
  unfold edgePar
  rw [edgesOf, xorl_append, xorl_map, xorl_filter]
  congr 1
  rw [← xorl_and]
  exact xorl_congr fun v _ => by cases b u <;> simp

theorem edgePar_perm {adj : ℕ → ℕ → Bool} (hs : ∀ x y, adj x y = adj y x) {l l' : List ℕ} (h : l.Perm l') (b : Basis) :
    edgePar adj l b = edgePar adj l' b := by
  induction h with
  | nil => rfl
  | cons x h ih => rw [edgePar_cons, edgePar_cons, ih, xorl_perm h]
  | swap x y l =>
    simp only [edgePar_cons, xorl_cons, hs y x]
    generalize (xorl l fun v => adj x v && b v) = p
    generalize (xorl l fun v => adj y v && b v) = q
    generalize edgePar adj l b = r
    cases b x <;> cases b y <;> cases adj x y <;> cases p <;> cases q <;> cases r <;> rfl
  | trans _ _ h1 h2 => exact h1.trans h2

theorem edgePar_split {adj : ℕ → ℕ → Bool} {l : List ℕ} (h : SimpleOn adj l) {u : ℕ} (hu : u ∈ l) (b : Basis) :
    edgePar adj l b = Bool.xor (b u && xorl l fun v => adj u v && b v) (edgePar adj (l.erase u) b) := by
  have hp := List.perm_cons_erase hu
  rw [edgePar_perm h.symm hp, edgePar_cons, xorl_perm hp, xorl_cons, h.irrefl]
  simp

theorem edgePar_congr {adj adj' : ℕ → ℕ → Bool} {l : List ℕ} {b b' : Basis}
    (ha : ∀ x ∈ l, ∀ y ∈ l, adj x y = adj' x y) (hb : ∀ x ∈ l, b x = b' x) : edgePar adj l b = edgePar adj' l b' := by
  induction l with
  | nil => rfl
  | cons u l ih =>
    rw [edgePar_cons, edgePar_cons, ih (fun x hx y hy => ha x (by simp [hx]) y (by simp [hy])) fun x hx => hb x (by simp [hx]),
      hb u (by simp)]
    congr 2
    exact xorl_congr fun v hv => by rw [ha u (by simp) v (by simp [hv]), hb v (by simp [hv])]

theorem edgePar_xor {adj adj' adj'' : ℕ → ℕ → Bool} {l : List ℕ} (hl : l.Nodup) {b : Basis}
    (h : ∀ x ∈ l, ∀ y ∈ l, x ≠ y → adj x y = Bool.xor (adj' x y) (adj'' x y)) :
    edgePar adj l b = Bool.xor (edgePar adj' l b) (edgePar adj'' l b) := by
  induction l with
  | nil => rfl
  | cons u l ih =>
    rw [List.nodup_cons] at hl
    rw [edgePar_cons, edgePar_cons, edgePar_cons, ih hl.2 fun x hx y hy => h x (by simp [hx]) y (by simp [hy])]
    have : (xorl l fun v => adj u v && b v) =
        Bool.xor (xorl l fun v => adj' u v && b v) (xorl l fun v => adj'' u v && b v) := by
      rw [← xorl_xor]
      refine xorl_congr fun v hv => ?_
      rw [h u (by simp) v (by simp [hv]) (by rintro rfl; exact hl.1 hv)]
      cases adj' u v <;> cases adj'' u v <;> simp
    rw [this]
    cases b u <;> cases (xorl l fun v => adj' u v && b v) <;> cases (xorl l fun v => adj'' u v && b v) <;>
      cases edgePar adj' l b <;> cases edgePar adj'' l b <;> rfl

/-- `i` to the number of nodes that satisfy `f`. -/
noncomputable def iph (l : List ℕ) (f : ℕ → Bool) : ℂ := l.foldr (fun v c => (if f v then Complex.I else 1) * c) 1

theorem iph_pairs (l : List ℕ) (a b : ℕ → Bool) :
    iph l (fun v => a v && b v) * sgn (edgePar (fun x y => a x && a y) l b) =
      if xorl l (fun v => a v && b v) then Complex.I else 1 := by
  induction l with
  | nil => simp [iph, edgePar_nil]
  | cons u l ih =>
    have hi : iph (u :: l) (fun v => a v && b v) = (if a u && b u then Complex.I else 1) * iph l (fun v => a v && b v) := rfl
    have hx : (xorl l fun v => (a u && a v) && b v) = (a u && xorl l fun v => a v && b v) := by
      rw [← xorl_and]; exact xorl_congr fun v _ => by rw [Bool.and_assoc]
    rw [hi, edgePar_cons, hx, sgn_xor, xorl_cons]
    have : ∀ x y z w : ℂ, x * y * (z * w) = x * z * (y * w) := fun _ _ _ _ => by ring
    rw [this, ih]
    cases a u <;> cases b u <;> cases xorl l (fun v => a v && b v) <;> simp

theorem op1_powB_S (c : Bool) (n : ℕ) (ψ : QState) (b : Basis) :
    op1 (powB Ops.S c) n ψ b = (if c && b n then Complex.I else 1) * ψ b := by
  rw [op1_diag (by cases c <;> simp [powB, Ops.S, Mat2.Diag])]
  cases c <;> cases b n <;> simp [powB, Ops.S]

theorem op1_powB_Z (c : Bool) (n : ℕ) (ψ : QState) (b : Basis) :
    op1 (powB Ops.Z c) n ψ b = sgn (c && b n) * ψ b := by
  rw [op1_diag (by cases c <;> simp [powB, Ops.Z, Mat2.Diag])]
  cases c <;> cases b n <;> simp [powB, Ops.Z]

theorem locOps_S (a : ℕ → Bool) (l : List ℕ) (ψ : QState) (b : Basis) :
    locOps (fun n => powB Ops.S (a n)) l ψ b = iph l (fun v => a v && b v) * ψ b := by
  induction l with
  | nil => simp [iph, locOps]
  | cons u l ih =>
    have hi : iph (u :: l) (fun v => a v && b v) = (if a u && b u then Complex.I else 1) * iph l (fun v => a v && b v) := rfl
    rw [locOps, op1_powB_S, ih, hi, mul_assoc]

theorem locOps_Z (a : ℕ → Bool) (l : List ℕ) (ψ : QState) (b : Basis) :
    locOps (fun n => powB Ops.Z (a n)) l ψ b = sgn (xorl l fun v => a v && b v) * ψ b := by
  induction l with
  | nil => simp [locOps]
  | cons u l ih => rw [locOps, op1_powB_Z, ih, xorl_cons, sgn_xor, mul_assoc]

/-- `φ` does not depend on the bit of node `u`. -/
def NoBit (u : ℕ) (φ : QState) : Prop := ∀ b x, φ (update b u x) = φ b

theorem edgePar_update {adj : ℕ → ℕ → Bool} {l : List ℕ} (h : SimpleOn adj l) {u : ℕ} (hu : u ∈ l) (b : Basis) (x : Bool) :
    edgePar adj l (update b u x) = Bool.xor (x && xorl l fun v => adj u v && b v) (edgePar adj (l.erase u) b) := by
  rw [edgePar_split h hu, update_self]
  congr 1
  · congr 1
    refine xorl_congr fun v _ => ?_
    by_cases hv : v = u
    · subst hv; simp [h.irrefl]
    · rw [update_of_ne hv]
  · refine edgePar_congr (fun _ _ _ _ => rfl) fun y hy => ?_
    rw [update_of_ne]
    rintro rfl
    exact (List.Nodup.mem_erase_iff h.nodup).1 hy |>.1 rfl

theorem edgePar_locComp {adj : ℕ → ℕ → Bool} {l : List ℕ} (h : SimpleOn adj l) (u : ℕ) (b : Basis) :
    edgePar (locComp adj u) l b = Bool.xor (edgePar adj l b) (edgePar (fun x y => adj u x && adj u y) l b) := by
  refine edgePar_xor h.nodup fun x _ y _ hxy => ?_
  unfold locComp
  cases adj u x <;> cases adj u y <;> cases adj x y <;> simp [hxy]

theorem locComp_simple {adj : ℕ → ℕ → Bool} {l : List ℕ} (h : SimpleOn adj l) (u : ℕ) : SimpleOn (locComp adj u) l := by
  refine ⟨h.nodup, fun x y => ?_, fun x => ?_, fun x y => ?_⟩
  · unfold locComp
    rw [h.symm x y]
    by_cases hxy : x = y
    · subst hxy; rfl
    · simp only [ne_eq, hxy, Ne.symm hxy, not_false_eq_true, true_and, and_comm]
  · unfold locComp; simp [h.irrefl]
  · unfold locComp
    split
    · rename_i hc; intro _; exact h.mem x u (by rw [h.symm]; exact hc.2.1)
    · exact h.mem x y

theorem locComp_nbr (adj : ℕ → ℕ → Bool) (h : ∀ x, adj x x = false) (u x : ℕ) : locComp adj u u x = adj u x := by
  unfold locComp; simp [h]

theorem HSH_entries : Ops.H * Ops.S * Ops.H = mat2 ((1 + Complex.I) / 2) ((1 - Complex.I) / 2) ((1 - Complex.I) / 2)
    ((1 + Complex.I) / 2) := by
  have h2 : (1 / (Real.sqrt 2 : ℂ)) * (1 / (Real.sqrt 2 : ℂ)) = 1 / 2 := by
    rw [div_mul_div_comm, ← Complex.ofReal_mul, Real.mul_self_sqrt (by norm_num)]; norm_num
  unfold Ops.H Ops.S
  rw [Matrix.smul_mul, Matrix.smul_mul, Matrix.mul_smul, smul_smul, h2, mat2_mul, mat2_mul, mat2_smul]
  apply mat2_ext <;> simp only [mat2_ff, mat2_ft, mat2_tf, mat2_tt] <;> ring

/-- Local complementation: `√X`-like rotation at `u` and `S` on its neighbours. -/
theorem locComp_ket {adj : ℕ → ℕ → Bool} {l : List ℕ} (h : SimpleOn adj l) {u : ℕ} (hu : u ∈ l) {φ : QState}
    (hφ : NoBit u φ) :
    op1 (Ops.H * Ops.S * Ops.H) u (entangleAll adj l φ) =
      locOps (fun n => powB Ops.S (adj u n)) l (entangleAll (locComp adj u) l φ) := by
  funext b
  rw [locOps_S, entangleAll_apply, edgePar_locComp h, sgn_xor]
  have hr : iph l (fun v => adj u v && b v) * (sgn (edgePar adj l b) *
      sgn (edgePar (fun x y => adj u x && adj u y) l b) * φ b) =
      (iph l (fun v => adj u v && b v) * sgn (edgePar (fun x y => adj u x && adj u y) l b)) *
        (sgn (edgePar adj l b) * φ b) := by ring
  rw [hr, iph_pairs, edgePar_split h hu, HSH_entries]
  unfold op1
  rw [entangleAll_apply, entangleAll_apply, hφ, hφ, edgePar_update h hu, edgePar_update h hu]
  simp only [Bool.false_and, Bool.true_and, sgn_xor, sgn_false, one_mul]
  cases b u <;> cases xorl l (fun v => adj u v && b v) <;> simp <;> ring

/-- `X` at `u` and `Z` on its neighbours leave the graph state as it is. -/
theorem stab_ket {adj : ℕ → ℕ → Bool} {l : List ℕ} (h : SimpleOn adj l) {u : ℕ} (hu : u ∈ l) {φ : QState}
    (hφ : NoBit u φ) :
    op1 Ops.X u (entangleAll adj l φ) = locOps (fun n => powB Ops.Z (adj u n)) l (entangleAll adj l φ) := by
  funext b
  rw [locOps_Z, entangleAll_apply]
  unfold op1
  rw [entangleAll_apply, entangleAll_apply, hφ, hφ, edgePar_update h hu, edgePar_update h hu, edgePar_split h hu]
  simp only [sgn_xor]
  cases b u <;> cases xorl l (fun v => adj u v && b v) <;> simp [Ops.X]

/-- Pivoting along the edge `u v`, the two nodes being exchanged. -/
def pivotSwap (adj : ℕ → ℕ → Bool) (u v : ℕ) : ℕ → ℕ → Bool := fun x y =>
  if x = u ∨ x = v ∨ y = u ∨ y = v then adj (Equiv.swap u v x) (Equiv.swap u v y)
  else if x = y then false
  else Bool.xor (adj x y) (Bool.xor (adj u x && adj v y) (adj u y && adj v x))

theorem bilinear (a c b : ℕ → Bool) (l : List ℕ) :
    edgePar (fun x y => Bool.xor (a x && c y) (a y && c x)) l b =
      Bool.xor ((xorl l fun v => a v && b v) && (xorl l fun v => c v && b v)) (xorl l fun v => (a v && c v) && b v) := by
  induction l with
  | nil => rfl
  | cons u l ih =>
    have hx : (xorl l fun v => Bool.xor (a u && c v) (a v && c u) && b v) =
        Bool.xor (a u && xorl l fun v => c v && b v) (c u && xorl l fun v => a v && b v) := by
      rw [← xorl_and, ← xorl_and, ← xorl_xor]
      exact xorl_congr fun v _ => by cases a u <;> cases c u <;> cases a v <;> cases c v <;> simp
    rw [edgePar_cons, hx, ih]
    simp only [xorl_cons]
    cases a u <;> cases c u <;> cases b u <;> cases (xorl l fun v => c v && b v) <;>
      cases (xorl l fun v => a v && b v) <;> cases (xorl l fun v => (a v && c v) && b v) <;> rfl

theorem pivotSwap_simple {adj : ℕ → ℕ → Bool} {l : List ℕ} (h : SimpleOn adj l) {u v : ℕ} (hu : u ∈ l) (hv : v ∈ l) :
    SimpleOn (pivotSwap adj u v) l := by
  refine ⟨h.nodup, fun x y => ?_, fun x => ?_, fun x y => ?_⟩
  · unfold pivotSwap
    rw [h.symm x y, h.symm (Equiv.swap u v x)]
    by_cases hc : x = u ∨ x = v ∨ y = u ∨ y = v
    · have : y = u ∨ y = v ∨ x = u ∨ x = v := by tauto
      simp only [if_pos hc, if_pos this]
    · have : ¬ (y = u ∨ y = v ∨ x = u ∨ x = v) := by tauto
      rw [if_neg hc, if_neg this]
      by_cases hxy : x = y
      · rw [if_pos hxy, if_pos hxy.symm]
      · rw [if_neg hxy, if_neg (Ne.symm hxy), Bool.xor_comm (adj u x && adj v y)]
  · unfold pivotSwap
    split
    · exact h.irrefl _
    · simp
  · unfold pivotSwap
    intro hxy
    by_cases hxu : x = u
    · exact hxu ▸ hu
    by_cases hxv : x = v
    · exact hxv ▸ hv
    split at hxy
    · rw [Equiv.swap_apply_of_ne_of_ne hxu hxv] at hxy
      exact h.mem _ _ hxy
    · split at hxy
      · cases hxy
      · by_contra hx
        have h1 : adj x y = false := by by_contra hc; exact hx (h.mem x y (by simpa using hc))
        have h2 : adj u x = false := by by_contra hc; exact hx (h.mem x u (by rw [h.symm]; simpa using hc))
        have h3 : adj v x = false := by by_contra hc; exact hx (h.mem x v (by rw [h.symm]; simpa using hc))
        simp [h1, h2, h3] at hxy

theorem locComp_ne (adj : ℕ → ℕ → Bool) (u : ℕ) {x y : ℕ} (hxy : x ≠ y) :
    locComp adj u x y = Bool.xor (adj x y) (adj u x && adj u y) := by
  unfold locComp
  cases adj u x <;> cases adj u y <;> cases adj x y <;> simp [hxy]

/-- Three local complementations make a pivot. -/
theorem locComp_pivot {adj : ℕ → ℕ → Bool} {l : List ℕ} (h : SimpleOn adj l) {u v : ℕ} (huv : adj u v = true) :
    locComp (locComp (locComp adj u) v) u = pivotSwap adj u v := by
  have hne : u ≠ v := by rintro rfl; rw [h.irrefl] at huv; cases huv
  have hvu : adj v u = true := by rw [h.symm]; exact huv
  have h1 := locComp_simple h u
  have h2 := locComp_simple h1 v
  have h3 := locComp_simple h2 u
  have n1 : ∀ x, locComp adj u u x = adj u x := locComp_nbr adj h.irrefl u
  have n2 : ∀ x, locComp (locComp adj u) v v x = locComp adj u v x := locComp_nbr _ h1.irrefl v
  have n3 : ∀ x, locComp (locComp (locComp adj u) v) u u x = locComp (locComp adj u) v u x := locComp_nbr _ h2.irrefl u
  -- the neighbours of `u` and `v` after the first two steps
  have a1 : ∀ x, x ≠ v → locComp adj u v x = Bool.xor (adj v x) (adj u x) := by
    intro x hx; rw [locComp_ne _ _ hx.symm, huv]; simp
  have a2 : ∀ x, x ≠ u → x ≠ v → locComp (locComp adj u) v u x = adj v x := by
    intro x hx hxv
    rw [locComp_ne _ _ hx.symm, n1, a1 u hne, a1 x hxv, hvu, h.irrefl]
    cases adj u x <;> cases adj v x <;> rfl
  have a2v : locComp (locComp adj u) v u v = true := by
    rw [locComp_ne _ _ hne, n1, h1.irrefl]; simp [huv]
  -- `u` first
  have main : ∀ x y, x = u ∨ x = v → y ≠ u → y ≠ v →
      locComp (locComp (locComp adj u) v) u x y = adj (Equiv.swap u v x) y := by
    intro x y hx hyu hyv
    rcases hx with rfl | rfl
    · rw [n3, a2 y hyu hyv, Equiv.swap_apply_left]
    · rw [locComp_ne _ _ hyv.symm, n2, a1 y hyv, a2 y hyu hyv, a2v, Equiv.swap_apply_right]
      cases adj u y <;> cases adj x y <;> rfl
  funext x y
  unfold pivotSwap
  by_cases hx : x = u ∨ x = v
  · by_cases hy : y = u ∨ y = v
    · rw [if_pos (by tauto)]
      have huv3 : locComp (locComp (locComp adj u) v) u u v = true := by rw [n3, a2v]
      rcases hx with rfl | rfl <;> rcases hy with rfl | rfl
      · rw [h3.irrefl, h.irrefl]
      · rw [huv3, Equiv.swap_apply_left, Equiv.swap_apply_right, hvu]
      · rw [h3.symm, huv3, Equiv.swap_apply_left, Equiv.swap_apply_right, huv]
      · rw [h3.irrefl, h.irrefl]
    · have hy' := not_or.1 hy
      rw [if_pos (by tauto), main x y hx hy'.1 hy'.2, Equiv.swap_apply_of_ne_of_ne hy'.1 hy'.2]
  · have hx' := not_or.1 hx
    by_cases hy : y = u ∨ y = v
    · rw [if_pos (by tauto), h3.symm, main y x hy hx'.1 hx'.2, Equiv.swap_apply_of_ne_of_ne hx'.1 hx'.2, h.symm]
    · have hy' := not_or.1 hy
      rw [if_neg (by tauto)]
      by_cases hxy : x = y
      · rw [if_pos hxy, hxy, h3.irrefl]
      · rw [if_neg hxy, locComp_ne _ _ hxy, locComp_ne _ _ hxy, locComp_ne _ _ hxy, a2 x hx'.1 hx'.2, a2 y hy'.1 hy'.2,
          a1 x hx'.2, a1 y hy'.2]
        cases adj u x <;> cases adj u y <;> cases adj v x <;> cases adj v y <;> cases adj x y <;> rfl

theorem edgePar_split2 {adj : ℕ → ℕ → Bool} {l : List ℕ} (h : SimpleOn adj l) {u v : ℕ} (hu : u ∈ l) (hv : v ∈ l)
    (hne : u ≠ v) (b : Basis) :
    edgePar adj l b = Bool.xor (b u && Bool.xor (adj u v && b v) (xorl ((l.erase u).erase v) fun x => adj u x && b x))
      (Bool.xor (b v && xorl ((l.erase u).erase v) fun x => adj v x && b x) (edgePar adj ((l.erase u).erase v) b)) := by
  have hv' : v ∈ l.erase u := (List.mem_erase_of_ne hne.symm).2 hv
  have hp : l.Perm (u :: v :: (l.erase u).erase v) :=
    (List.perm_cons_erase hu).trans ((List.perm_cons_erase hv').cons u)
  rw [edgePar_perm h.symm hp, edgePar_cons, edgePar_cons, xorl_cons]

/-- Pivoting: `H` on both ends of an edge. -/
theorem pivot_ket {adj : ℕ → ℕ → Bool} {l : List ℕ} (h : SimpleOn adj l) {u v : ℕ} (huv : adj u v = true) {φ : QState}
    (hφu : NoBit u φ) (hφv : NoBit v φ) :
    op1 Ops.H u (op1 Ops.H v (entangleAll adj l φ)) =
      locOps (fun n => powB Ops.Z (adj u n && adj v n)) l (entangleAll (pivotSwap adj u v) l φ) := by
  have hne : u ≠ v := by rintro rfl; rw [h.irrefl] at huv; cases huv
  have hu := h.mem u v huv
  have hv := h.mem v u (by rw [h.symm]; exact huv)
  have hs := pivotSwap_simple h hu hv
  have hv' : v ∈ l.erase u := (List.mem_erase_of_ne hne.symm).2 hv
  have hp : l.Perm (u :: v :: (l.erase u).erase v) :=
    (List.perm_cons_erase hu).trans ((List.perm_cons_erase hv').cons u)
  set l' := (l.erase u).erase v with hl'
  have hnd : (u :: v :: l').Nodup := hp.nodup_iff.1 h.nodup
  have hul : ∀ x ∈ l', x ≠ u := by rintro x hx rfl; simp [hx] at hnd
  have hvl : ∀ x ∈ l', x ≠ v := by rintro x hx rfl; simp [hx] at hnd
  have hndl' : l'.Nodup := by
    rw [List.nodup_cons, List.nodup_cons] at hnd; exact hnd.2.2
  have hup : ∀ (b : Basis) (x y : Bool), edgePar adj l (update (update b u x) v y) =
      Bool.xor (x && Bool.xor y (xorl l' fun n => adj u n && b n))
        (Bool.xor (y && xorl l' fun n => adj v n && b n) (edgePar adj l' b)) := by
    intro b x y
    rw [edgePar_split2 h hu hv hne, ← hl', update_self, update_of_ne hne, update_self, huv]
    have e : ∀ n ∈ l', update (update b u x) v y n = b n := fun n hn => by
      rw [update_of_ne (hvl n hn), update_of_ne (hul n hn)]
    rw [edgePar_congr (fun _ _ _ _ => rfl) e, xorl_congr fun n hn => by rw [e n hn],
      xorl_congr (l := l') (f := fun n => adj v n && update (update b u x) v y n) fun n hn => by rw [e n hn]]
    simp
  have hA' : ∀ b, edgePar (pivotSwap adj u v) l b =
      Bool.xor (b u && Bool.xor (b v) (xorl l' fun n => adj v n && b n))
        (Bool.xor (b v && xorl l' fun n => adj u n && b n) (Bool.xor (edgePar adj l' b)
          (Bool.xor ((xorl l' fun n => adj u n && b n) && (xorl l' fun n => adj v n && b n))
            (xorl l' fun n => (adj u n && adj v n) && b n)))) := by
    intro b
    rw [edgePar_split2 hs hu hv hne, ← hl', ← bilinear]
    have e1 : pivotSwap adj u v u v = true := by
      unfold pivotSwap
      rw [if_pos (by tauto), Equiv.swap_apply_left, Equiv.swap_apply_right, h.symm, huv]
    have e2 : ∀ n ∈ l', pivotSwap adj u v u n = adj v n := fun n hn => by
      unfold pivotSwap
      rw [if_pos (by tauto), Equiv.swap_apply_left, Equiv.swap_apply_of_ne_of_ne (hul n hn) (hvl n hn)]
    have e3 : ∀ n ∈ l', pivotSwap adj u v v n = adj u n := fun n hn => by
      unfold pivotSwap
      rw [if_pos (by tauto), Equiv.swap_apply_right, Equiv.swap_apply_of_ne_of_ne (hul n hn) (hvl n hn)]
    rw [e1, xorl_congr fun n hn => by rw [e2 n hn],
      xorl_congr (l := l') (f := fun n => pivotSwap adj u v v n && b n) fun n hn => by rw [e3 n hn],
      edgePar_xor (adj' := adj) (adj'' := fun x y => Bool.xor (adj u x && adj v y) (adj u y && adj v x)) hndl' ?_]
    · simp
    · intro x hx y hy hxy
      unfold pivotSwap
      rw [if_neg (by have := hul x hx; have := hvl x hx; have := hul y hy; have := hvl y hy; tauto), if_neg hxy]
  have hZ : ∀ b : Basis, (xorl l fun n => (adj u n && adj v n) && b n) = xorl l' fun n => (adj u n && adj v n) && b n := by
    intro b
    rw [xorl_perm hp, xorl_cons, xorl_cons, h.irrefl, h.irrefl]; simp
  have h2 : (1 / (Real.sqrt 2 : ℂ)) * (1 / (Real.sqrt 2 : ℂ)) = 1 / 2 := by
    rw [div_mul_div_comm, ← Complex.ofReal_mul, Real.mul_self_sqrt (by norm_num)]; norm_num
  funext b
  rw [locOps_Z, entangleAll_apply, hA', hZ]
  have hH : ∀ x y, Ops.H x y = (1 / (Real.sqrt 2 : ℂ)) * sgn (x && y) := by
    intro x y; unfold Ops.H; cases x <;> cases y <;> simp
  simp only [op1, entangleAll_apply, hup, hφu _ _, hφv _ _, hH, update_of_ne hne.symm]
  generalize (xorl l' fun n => adj u n && b n) = pu
  generalize (xorl l' fun n => adj v n && b n) = pv
  generalize (xorl l' fun n => (adj u n && adj v n) && b n) = pz
  generalize edgePar adj l' b = r
  have hs2 : ∀ a c d e f g : ℂ, 1 / (Real.sqrt 2 : ℂ) * a * (1 / (Real.sqrt 2 : ℂ) * c * d + 1 / (Real.sqrt 2 : ℂ) * e * f) =
      1 / 2 * (a * (c * d + e * f)) := by
    intro a c d e f g; rw [← h2]; ring
  rw [hs2 _ _ _ _ _ 0, hs2 _ _ _ _ _ 0]
  cases b u <;> cases b v <;> cases pu <;> cases pv <;> cases pz <;> cases r <;> simp <;> ring

/-- Deleting a node whose bit is known. -/
theorem delete_ket {adj : ℕ → ℕ → Bool} {l : List ℕ} (h : SimpleOn adj l) {u : ℕ} (hu : u ∈ l) {φ : QState}
    (hφ : NoBit u φ) (b : Basis) (x : Bool) :
    entangleAll adj l φ (update b u x) =
      locOps (fun n => powB Ops.Z (x && adj u n)) l (entangleAll adj (l.erase u) φ) b := by
  rw [locOps_Z, entangleAll_apply, entangleAll_apply, hφ, edgePar_update h hu, sgn_xor, mul_assoc, ← xorl_and]
  congr 2
  exact xorl_congr fun v _ => by rw [Bool.and_assoc]

theorem prepAll_apply (l : List ℕ) (b : Basis) : prepAll l b = (1 / (Real.sqrt 2 : ℂ)) ^ l.length := by
  induction l with
  | nil => simp [prepAll]
  | cons n l ih =>
    show plusVec (b n) * prepAll l b = _
    rw [ih, List.length_cons, pow_succ']; rfl

theorem prepAll_noBit (l : List ℕ) (u : ℕ) : NoBit u (prepAll l) := fun b x => by
  rw [prepAll_apply, prepAll_apply]

end Graphix
