import Verif.Props.DensityMatrix

/-! # Traces of density operators -/

namespace Graphix

open NdArray

/-- The basis state whose bits at the nodes of `S` are 1. -/
abbrev indB (S : Finset ℕ) : Basis := fun n => decide (n ∈ S)

theorem sum_powerset_erase {M : Type} [AddCommMonoid M] {L : Finset ℕ} {n : ℕ} (h : n ∈ L) (g : Basis → M) :
    ∑ S ∈ L.powerset, g (indB S) =
      ∑ S ∈ (L.erase n).powerset, (g (Function.update (indB S) n false) + g (Function.update (indB S) n true)) := by
  conv_lhs => rw [← Finset.insert_erase h]
  have hn : n ∉ L.erase n := by simp
  rw [Finset.sum_powerset_insert hn, ← Finset.sum_add_distrib]
  refine Finset.sum_congr rfl (fun S hS => ?_)
  have hnS : n ∉ S := fun hc => hn (Finset.mem_powerset.1 hS hc)
  congr 2
  · funext m
    by_cases hm : m = n
    · subst hm; simp [hnS]
    · simp [hm]
  · funext m
    by_cases hm : m = n
    · subst hm; simp
    · simp [hm]

theorem sum_allBits_succ {M : Type} [AddCommMonoid M] (k : ℕ) (f : List Bool → M) :
    ∑ u ∈ allBits (k + 1), f u = ∑ u ∈ allBits k, (f (false :: u) + f (true :: u)) := by
  have hd : Disjoint ((allBits k).image (false :: ·)) ((allBits k).image (true :: ·)) := by
    rw [Finset.disjoint_left]; intro x hx hy
    simp only [Finset.mem_image] at hx hy
    obtain ⟨a, -, rfl⟩ := hx
    obtain ⟨b, -, hb⟩ := hy
    simp at hb
  show ∑ u ∈ ((allBits k).image (false :: ·) ∪ (allBits k).image (true :: ·)), f u = _
  rw [Finset.sum_union hd, Finset.sum_image (by simp), Finset.sum_image (by simp), ← Finset.sum_add_distrib]

theorem setBits_cons {n : ℕ} {ns : List ℕ} (h : n ∉ ns) (b : Basis) (x : Bool) (u : List Bool) :
    setBits b (n :: ns) (x :: u) = Function.update (setBits b ns u) n x := by
  funext m
  by_cases hm : m = n
  · subst hm; simp [setBits]
  · simp [setBits, hm, List.idxOf_cons, Ne.symm hm]

theorem sum_powerset_setBits {M : Type} [AddCommMonoid M] : ∀ (nodes : List ℕ) (L : Finset ℕ), nodes.Nodup →
    (∀ n ∈ nodes, n ∈ L) → ∀ g : Basis → M, ∑ S ∈ L.powerset, g (indB S) =
      ∑ W ∈ (L \ nodes.toFinset).powerset, ∑ u ∈ allBits nodes.length, g (setBits (indB W) nodes u)
  | [], L, _, _, g => by
    have e : ∀ b : Basis, setBits b [] [] = b := by intro b; funext m; simp [setBits]
    simp [allBits, e]
  | n :: ns, L, hnd, hL, g => by
    rw [List.nodup_cons] at hnd
    rw [sum_powerset_erase (hL n (by simp)),
      sum_powerset_setBits ns (L.erase n) hnd.2 (fun m hm => Finset.mem_erase.2 ⟨fun hc => hnd.1 (hc ▸ hm), hL m (by simp [hm])⟩)
        (fun b => g (Function.update b n false) + g (Function.update b n true))]
    have e : L.erase n \ ns.toFinset = L \ (n :: ns).toFinset := by
      ext m; simp; tauto
    rw [e]
    refine Finset.sum_congr rfl (fun W _ => ?_)
    rw [List.length_cons, sum_allBits_succ]
    refine Finset.sum_congr rfl (fun u _ => ?_)
    rw [setBits_cons hnd.1, setBits_cons hnd.1]

theorem map_setBits {nodes : List ℕ} (h : nodes.Nodup) (b : Basis) {u : List Bool} (hu : u.length = nodes.length) :
    nodes.map (setBits b nodes u) = u := by
  apply List.ext_getElem (by simp [hu])
  intro i h1 h2
  simp only [List.length_map] at h1
  simp only [List.getElem_map, setBits]
  rw [if_pos (List.getElem_mem h1), h.idxOf_getElem]
  simp [List.getD, h2]

theorem setBits_setBits (b : Basis) (nodes : List ℕ) (u s : List Bool) : setBits (setBits b nodes u) nodes s = setBits b nodes s := by
  funext m; by_cases hm : m ∈ nodes <;> simp [setBits, hm]

theorem traceOn_setBits {l nodes : List ℕ} (hn : nodes.Nodup) (hl : ∀ n ∈ nodes, n ∈ l) (ρ : QDens) :
    traceOn l ρ = ∑ W ∈ (l.toFinset \ nodes.toFinset).powerset, ∑ u ∈ allBits nodes.length,
      ρ (setBits (indB W) nodes u) (setBits (indB W) nodes u) := by
  unfold traceOn
  rw [← sum_powerset_setBits nodes l.toFinset hn (by simpa using hl) (fun b => ρ b b)]

/-- The trace of the matrix is the trace of the operator. -/
theorem traceOn_absDens {l : List ℕ} (hl : l.Nodup) {rho : NpMat} (h : rho.rows = 2 ^ l.length) :
    traceOn l (absDens l rho) = rho.trace := by
  rw [traceOn_setBits hl (fun n hn => hn), sdiff_self, Finset.bot_eq_empty, Finset.powerset_empty, Finset.sum_singleton,
    NpMat.trace, h, ← sum_bitSet, allBits_eq]
  refine Finset.sum_congr rfl (fun u hu => ?_)
  rw [mem_bitSet] at hu
  unfold absDens
  rw [← ofBits_map, map_setBits hl _ hu]

theorem conjBy_opN (K : List Bool → List Bool → ℂ) (nodes : List ℕ) (ρ : QDens) (b b' : Basis) :
    conjBy (opN K nodes) ρ b b' = ∑ t ∈ allBits nodes.length, ∑ s ∈ allBits nodes.length,
      K (nodes.map b) s * ρ (setBits b nodes s) (setBits b' nodes t) * star (K (nodes.map b') t) := by
  unfold conjBy rightBy leftBy opN
  rw [star_sum]
  refine Finset.sum_congr rfl (fun t _ => ?_)
  rw [star_mul', star_star, mul_comm, Finset.sum_mul]

/-- The trace of `K ρ K†` depends on `K† K` only. -/
theorem traceOn_conjBy {l nodes : List ℕ} (hn : nodes.Nodup) (hl : ∀ n ∈ nodes, n ∈ l) (K : List Bool → List Bool → ℂ)
    (ρ : QDens) : traceOn l (conjBy (opN K nodes) ρ) =
      ∑ W ∈ (l.toFinset \ nodes.toFinset).powerset, ∑ s ∈ allBits nodes.length, ∑ t ∈ allBits nodes.length,
        (∑ u ∈ allBits nodes.length, star (K u t) * K u s) * ρ (setBits (indB W) nodes s) (setBits (indB W) nodes t) := by
  rw [traceOn_setBits hn hl]
  refine Finset.sum_congr rfl (fun W _ => ?_)
  have e : ∀ u ∈ allBits nodes.length, conjBy (opN K nodes) ρ (setBits (indB W) nodes u) (setBits (indB W) nodes u) =
      ∑ s ∈ allBits nodes.length, ∑ t ∈ allBits nodes.length,
        star (K u t) * K u s * ρ (setBits (indB W) nodes s) (setBits (indB W) nodes t) := by
    intro u hu
    rw [conjBy_opN, map_setBits hn _ (mem_allBits.1 hu), Finset.sum_comm]
    refine Finset.sum_congr rfl (fun s _ => Finset.sum_congr rfl (fun t _ => ?_))
    rw [setBits_setBits, setBits_setBits]; ring
  rw [Finset.sum_congr rfl e, Finset.sum_comm]
  refine Finset.sum_congr rfl (fun s _ => ?_)
  rw [Finset.sum_comm]
  refine Finset.sum_congr rfl (fun t _ => ?_)
  rw [Finset.sum_mul]

theorem traceOn_list_sum (l : List ℕ) (L : List QDens) : traceOn l L.sum = (L.map (traceOn l)).sum := by
  induction L with
  | nil => simp [traceOn]
  | cons a L ih => rw [List.sum_cons, traceOn_add, ih]; simp

theorem list_sum_finset {α β : Type} (L : List α) (S : Finset β) (f : α → β → ℂ) :
    (L.map (fun a => ∑ b ∈ S, f a b)).sum = ∑ b ∈ S, (L.map (fun a => f a b)).sum := by
  induction L with
  | nil => simp
  | cons a L ih => simp [ih, Finset.sum_add_distrib]

/-- A complete set of Kraus operators keeps the trace. -/
theorem kraus_trace {l nodes : List ℕ} (hn : nodes.Nodup) (hl : ∀ n ∈ nodes, n ∈ l)
    {ch : List (ℂ × (List Bool → List Bool → ℂ))} (hc : KrausComplete nodes.length ch) (ρ : QDens) :
    traceOn l (krausN ch nodes ρ) = traceOn l ρ := by
  unfold krausN
  rw [traceOn_list_sum, List.map_map]
  have e : ∀ k ∈ ch, (traceOn l ∘ fun k : ℂ × (List Bool → List Bool → ℂ) => (k.1 * star k.1) • conjBy (opN k.2 nodes) ρ) k =
      ∑ W ∈ (l.toFinset \ nodes.toFinset).powerset, ∑ s ∈ allBits nodes.length, ∑ t ∈ allBits nodes.length,
        (k.1 * star k.1 * ∑ u ∈ allBits nodes.length, star (k.2 u t) * k.2 u s) *
          ρ (setBits (indB W) nodes s) (setBits (indB W) nodes t) := by
    intro k _
    simp only [Function.comp]
    rw [traceOn_smul, traceOn_conjBy hn hl, Finset.mul_sum]
    refine Finset.sum_congr rfl (fun W _ => ?_)
    rw [Finset.mul_sum]
    refine Finset.sum_congr rfl (fun s _ => ?_)
    rw [Finset.mul_sum]
    refine Finset.sum_congr rfl (fun t _ => ?_)
    ring
  rw [List.map_congr_left e, list_sum_finset, traceOn_setBits hn hl]
  refine Finset.sum_congr rfl (fun W _ => ?_)
  rw [list_sum_finset]
  refine Finset.sum_congr rfl (fun s hs => ?_)
  rw [list_sum_finset, Finset.sum_eq_single s]
  · rw [List.sum_map_mul_right, hc s hs s hs, if_pos rfl, one_mul]
  · intro t ht hne
    rw [List.sum_map_mul_right, hc s hs t ht, if_neg (Ne.symm hne), zero_mul]
  · intro h; exact absurd hs h

/-- A complete set of Kraus operators maps density operators to density operators. -/
theorem IsDensity.kraus {l nodes : List ℕ} (hn : nodes.Nodup) (hl : ∀ n ∈ nodes, n ∈ l)
    {ch : List (ℂ × (List Bool → List Bool → ℂ))} (hc : KrausComplete nodes.length ch) {ρ : QDens} (h : IsDensity l ρ) :
    IsDensity l (krausN ch nodes ρ) :=
  ⟨h.mixture.kraus ch nodes, by rw [kraus_trace hn hl hc, h.trace]⟩

theorem krausN_single (K : List Bool → List Bool → ℂ) (nodes : List ℕ) (ρ : QDens) :
    krausN [(1, K)] nodes ρ = conjBy (opN K nodes) ρ := by
  simp [krausN]

/-- Unitary operators map density operators to density operators. -/
theorem IsDensity.unitary {l nodes : List ℕ} (hn : nodes.Nodup) (hl : ∀ n ∈ nodes, n ∈ l)
    {K : List Bool → List Bool → ℂ} (hc : KrausComplete nodes.length [(1, K)]) {ρ : QDens} (h : IsDensity l ρ) :
    IsDensity l (conjBy (opN K nodes) ρ) := by
  have := h.kraus hn hl hc
  rwa [krausN_single] at this

theorem allBits_one : allBits 1 = {[false], [true]} := by decide

theorem ofMat2_bits (U : Mat2) (x y : Bool) : (NpMat.ofMat2 U).bits [x] [y] = U x y := by
  cases x <;> cases y <;> rfl

theorem krausComplete_single {U : Mat2} (h : U.conjTranspose * U = 1) : KrausComplete 1 [(1, (NpMat.ofMat2 U).bits)] := by
  have key : ∀ x y : Bool, star (U false y) * U false x + star (U true y) * U true x = if x = y then 1 else 0 := by
    intro x y
    have := congrFun (congrFun h y) x
    rw [Matrix.mul_apply, Fintype.sum_bool, Matrix.one_apply] at this
    simp only [Matrix.conjTranspose_apply] at this
    rw [add_comm]
    by_cases e : x = y
    · rw [if_pos e]; rw [if_pos e.symm] at this; exact this
    · rw [if_neg e]; rw [if_neg (Ne.symm e)] at this; exact this
  intro s hs t ht
  rw [mem_allBits] at hs ht
  match s, t, hs, ht with
  | [x], [y], _, _ =>
    simp only [List.map_cons, List.map_nil, List.sum_cons, List.sum_nil, allBits_one]
    rw [Finset.sum_pair (by decide), ofMat2_bits, ofMat2_bits, ofMat2_bits, ofMat2_bits, key]
    simp

theorem IsDensity.op1 {l : List ℕ} {n : ℕ} (hl : n ∈ l) {U : Mat2} (hU : U.conjTranspose * U = 1) {ρ : QDens}
    (h : IsDensity l ρ) : IsDensity l (conjBy (Graphix.op1 U n) ρ) := by
  rw [← opN_single]
  exact h.unitary (nodes := [n]) (by simp) (by simpa using hl) (krausComplete_single hU)

theorem allBits_two : allBits 2 = {[false, false], [false, true], [true, false], [true, true]} := by decide

theorem sum_allBits_two (f : List Bool → ℂ) :
    ∑ u ∈ allBits 2, f u = f [false, false] + (f [false, true] + (f [true, false] + f [true, true])) := by
  rw [allBits_two, Finset.sum_insert (by decide), Finset.sum_insert (by decide), Finset.sum_pair (by decide)]

theorem krausComplete_cz : KrausComplete 2 [(1, Ops.npCZ.bits)] := by
  intro s hs t ht
  rw [allBits_two] at hs ht
  simp only [Finset.mem_insert, Finset.mem_singleton] at hs ht
  rw [List.map_singleton, List.sum_singleton, sum_allBits_two]
  rcases hs with rfl | rfl | rfl | rfl <;> rcases ht with rfl | rfl | rfl | rfl <;>
    simp [NpMat.bits, Ops.npCZ, NpMat.ofRows, ofBits]

theorem IsDensity.cz {l : List ℕ} {u v : ℕ} (huv : u ≠ v) (hu : u ∈ l) (hv : v ∈ l) {ρ : QDens}
    (h : IsDensity l ρ) : IsDensity l (conjBy (Graphix.cz u v) ρ) := by
  rw [← opN_cz huv]
  exact h.unitary (nodes := [u, v]) (by simp [huv]) (by simp [hu, hv]) krausComplete_cz

/-- Preparing a node in a normalised state. -/
theorem traceOn_prep {l : List ℕ} {n : ℕ} (hn : n ∉ l) {v : Bool → ℂ}
    (hv : v false * star (v false) + v true * star (v true) = 1) {ρ : QDens}
    (hρ : ∀ b b' x y, ρ (Function.update b n x) (Function.update b' n y) = ρ b b') :
    traceOn (l ++ [n]) (conjBy (prep n v) ρ) = traceOn l ρ := by
  unfold traceOn
  have hm : n ∈ (l ++ [n]).toFinset := by simp
  have he : (l ++ [n]).toFinset.erase n = l.toFinset := by
    ext m; simp only [Finset.mem_erase, List.mem_toFinset, List.mem_append, List.mem_singleton]
    constructor
    · rintro ⟨h1, h2 | h2⟩
      · exact h2
      · exact absurd h2 h1
    · intro h; exact ⟨fun hc => hn (hc ▸ h), Or.inl h⟩
  rw [sum_powerset_erase hm (fun b => conjBy (prep n v) ρ b b), he]
  refine Finset.sum_congr rfl (fun S _ => ?_)
  simp only [conjBy, rightBy, leftBy, prep, Function.update_self, hρ, star_mul', star_star]
  linear_combination ρ (fun n => decide (n ∈ S)) (fun n => decide (n ∈ S)) * hv

/-- Projecting a node out: the probability of the outcome. -/
theorem traceOn_projOut {l : List ℕ} {n : ℕ} (v : Bool → ℂ) (ρ : QDens) :
    traceOn (l.filter (· ∉ [n])) (conjBy (projOut n v) ρ) = ∑ W ∈ (l.toFinset.erase n).powerset,
      ∑ x : Bool, ∑ y : Bool, star (v x) * v y * ρ (Function.update (indB W) n x) (Function.update (indB W) n y) := by
  unfold traceOn
  have he : (l.filter (· ∉ [n])).toFinset = l.toFinset.erase n := by
    ext m; simp; tauto
  rw [he]
  refine Finset.sum_congr rfl (fun W _ => ?_)
  simp only [conjBy, rightBy, leftBy, projOut, Graphix.op1, bra, star_add, star_mul', star_star, Fintype.sum_bool]
  ring

theorem traceOn_erase {l : List ℕ} {n : ℕ} (hn : n ∈ l) (ρ : QDens) : traceOn l ρ =
    ∑ W ∈ (l.toFinset.erase n).powerset, ∑ x : Bool, ρ (Function.update (indB W) n x) (Function.update (indB W) n x) := by
  unfold traceOn
  rw [sum_powerset_erase (by simpa using hn) (fun b => ρ b b)]
  refine Finset.sum_congr rfl (fun W _ => ?_)
  rw [Fintype.sum_bool, add_comm]

/-- The probabilities of the outcomes of a complete measurement sum to the trace. -/
theorem traceOn_projOut_sum {l : List ℕ} {n : ℕ} (hn : n ∈ l) {v w : Bool → ℂ} (hvw : outer v + outer w = 1) (ρ : QDens) :
    traceOn (l.filter (· ∉ [n])) (conjBy (projOut n v) ρ) + traceOn (l.filter (· ∉ [n])) (conjBy (projOut n w) ρ) = traceOn l ρ := by
  rw [traceOn_projOut, traceOn_projOut, traceOn_erase hn, ← Finset.sum_add_distrib]
  refine Finset.sum_congr rfl (fun W _ => ?_)
  have key : ∀ x y : Bool, star (v x) * v y + star (w x) * w y = if x = y then 1 else 0 := by
    intro x y
    have := congrFun (congrFun hvw y) x
    rw [Matrix.one_apply] at this
    rw [show (if x = y then (1 : ℂ) else 0) = (if y = x then 1 else 0) by simp [eq_comm], ← this]
    simp only [Matrix.add_apply, Graphix.outer]; ring
  simp only [Fintype.sum_bool]
  have k1 := key true true
  have k2 := key true false
  have k3 := key false true
  have k4 := key false false
  simp only [reduceCtorEq, if_true, if_false] at k1 k2 k3 k4
  linear_combination (ρ (Function.update (indB W) n true) (Function.update (indB W) n true)) * k1 +
    (ρ (Function.update (indB W) n true) (Function.update (indB W) n false)) * k2 +
    (ρ (Function.update (indB W) n false) (Function.update (indB W) n true)) * k3 +
    (ρ (Function.update (indB W) n false) (Function.update (indB W) n false)) * k4

/-- `Tr (|v⟩⟨v| ρ)` is the probability of the outcome `v`. -/
theorem traceOn_leftBy_outer {l : List ℕ} {n : ℕ} (hn : n ∈ l) (v : Bool → ℂ) (ρ : QDens) :
    traceOn l (leftBy (Graphix.op1 (outer v) n) ρ) = traceOn (l.filter (· ∉ [n])) (conjBy (projOut n v) ρ) := by
  rw [traceOn_projOut, traceOn_erase hn]
  refine Finset.sum_congr rfl (fun W _ => ?_)
  simp only [leftBy, Graphix.op1, Function.update_self, Function.update_idem, Graphix.outer, Fintype.sum_bool]
  ring

/-- Projecting and tracing out is projecting out. -/
theorem traceOut_project {n : ℕ} {v : Bool → ℂ} (hv : v false * star (v false) + v true * star (v true) = 1) (ρ : QDens) :
    traceOutN [n] (conjBy (Graphix.op1 (outer v) n) ρ) = conjBy (projOut n v) ρ := by
  funext b b'
  have e : ∀ (b : Basis) (x : Bool), setBits b [n] [x] = Function.update b n x := by
    intro b x; rw [setBits_cons (by simp)]; congr 1
  unfold traceOutN
  rw [List.length_singleton, allBits_one, Finset.sum_pair (by decide)]
  simp only [e, conjBy, rightBy, leftBy, projOut, Graphix.op1, bra, Function.update_self, Function.update_idem, Graphix.outer, star_add, star_mul', star_star]
  set A := ρ (Function.update b n false) (Function.update b' n false)
  set B := ρ (Function.update b n false) (Function.update b' n true)
  set C := ρ (Function.update b n true) (Function.update b' n false)
  set D := ρ (Function.update b n true) (Function.update b' n true)
  linear_combination (star (v false) * (v false) * A + star (v false) * v true * B + star (v true) * v false * C + star (v true) * v true * D) * hv

end Graphix
