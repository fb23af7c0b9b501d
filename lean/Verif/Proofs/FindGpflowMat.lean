import Verif.Proofs.FindGpflow
import Verif.Props.FlowCheck

/-!
# The matrices of the flow-finding algorithm, and focused flows
-/

namespace Graphix
open GF2

namespace Aog

variable (a : Aog)

theorem mem_nonOutputs {v : ℕ} : v ∈ a.nonOutputs ↔ v ∈ a.og.nodes ∧ v ∉ a.og.outputs := by
  simp [nonOutputs]

theorem mem_nonInputs {v : ℕ} : v ∈ a.nonInputs ↔ v ∈ a.og.nodes ∧ v ∉ a.og.inputs := by
  simp [nonInputs]

theorem nonOutputs_nodup : a.nonOutputs.Nodup := Finset.sort_nodup _ _
theorem nonInputs_nodup : a.nonInputs.Nodup := Finset.sort_nodup _ _

theorem setOne_apply (m : GF2) (i j r c : ℕ) : setOne m i j r c = if r = i ∧ c = j then 1 else m r c := rfl

theorem addAdj_apply (adj : GF2) (u v x y : ℕ) (hx : x ∈ a.nonOutputs) (hy : y ∈ a.nonInputs) :
    a.addAdj adj u v (a.nonOutputs.idxOf x) (a.nonInputs.idxOf y) =
      if u = x ∧ v = y then 1 else adj (a.nonOutputs.idxOf x) (a.nonInputs.idxOf y) := by
  unfold addAdj
  split
  · rename_i h
    rw [setOne_apply]
    refine if_congr ?_ rfl rfl
    constructor
    · rintro ⟨h1, h2⟩
      exact ⟨(idxOf_inj' hx h.1 h1).symm, (idxOf_inj' hy h.2 h2).symm⟩
    · rintro ⟨rfl, rfl⟩; exact ⟨rfl, rfl⟩
  · rename_i h
    rw [if_neg]
    rintro ⟨rfl, rfl⟩; exact h ⟨hx, hy⟩

theorem adjFold_apply (x y : ℕ) (hx : x ∈ a.nonOutputs) (hy : y ∈ a.nonInputs) : ∀ (es : List (ℕ × ℕ)) (adj : GF2),
    es.foldl (fun adj e => a.addAdj (a.addAdj adj e.1 e.2) e.2 e.1) adj (a.nonOutputs.idxOf x) (a.nonInputs.idxOf y) =
      if (x, y) ∈ es ∨ (y, x) ∈ es then 1 else adj (a.nonOutputs.idxOf x) (a.nonInputs.idxOf y)
  | [], adj => by simp
  | (u, v) :: es, adj => by
    rw [List.foldl_cons, adjFold_apply x y hx hy es, addAdj_apply a _ _ _ _ _ hx hy, addAdj_apply a _ _ _ _ _ hx hy]
    by_cases h : (x, y) ∈ es ∨ (y, x) ∈ es
    · rw [if_pos h, if_pos (by rcases h with h | h; · exact Or.inl (List.mem_cons_of_mem _ h)
                               · exact Or.inr (List.mem_cons_of_mem _ h))]
    · rw [if_neg h]
      push Not at h
      by_cases h1 : v = x ∧ u = y
      · rw [if_pos h1, if_pos (Or.inr (by simp [h1.1, h1.2]))]
      · rw [if_neg h1]
        by_cases h2 : u = x ∧ v = y
        · rw [if_pos h2, if_pos (Or.inl (by simp [h2.1, h2.2]))]
        · rw [if_neg h2, if_neg]
          simp only [List.mem_cons, Prod.mk.injEq, not_or]
          exact ⟨⟨fun e => h2 ⟨e.1.symm, e.2.symm⟩, h.1⟩, ⟨fun e => h1 ⟨e.2.symm, e.1.symm⟩, h.2⟩⟩

theorem reducedAdj_apply (x y : ℕ) (hx : x ∈ a.nonOutputs) (hy : y ∈ a.nonInputs) :
    a.reducedAdj (a.nonOutputs.idxOf x) (a.nonInputs.idxOf y) = if a.og.Adj x y then 1 else 0 := by
  unfold reducedAdj
  rw [adjFold_apply a x y hx hy]
  rfl

/-- Entry of the flow-demand matrix. -/
def fdEntry (l : Label) (diag : Bool) (adj : ZMod 2) : ZMod 2 :=
  match l with
  | .plane .XY | .axis .X => adj
  | .plane .XZ | .plane .YZ | .axis .Z => if diag then 1 else 0
  | .axis .Y => if diag then 1 else adj

/-- Entry of the order-demand matrix. -/
def odEntry (l : Label) (diag : Bool) (adj : ZMod 2) : ZMod 2 :=
  match l with
  | .plane .XY => if diag then 1 else 0
  | .plane .XZ => if diag then 1 else adj
  | .plane .YZ => adj
  | .axis _ => 0

theorem demandStep_ok {v : ℕ} {l : Label} (hl : a.nodeLabel v = .ok l) (fd od : GF2) :
    ∃ fd' od', a.demandStep (fd, od) v = .ok (fd', od') ∧
      (∀ r, r ≠ a.nonOutputs.idxOf v → fd' r = fd r ∧ od' r = od r) ∧
      (∀ y, y ∈ a.nonInputs → v ∈ a.og.nodes →
        fd' (a.nonOutputs.idxOf v) (a.nonInputs.idxOf y) =
          fdEntry l (decide (v = y)) (fd (a.nonOutputs.idxOf v) (a.nonInputs.idxOf y)) ∧
        od' (a.nonOutputs.idxOf v) (a.nonInputs.idxOf y) =
          odEntry l (decide (v = y)) (od (a.nonOutputs.idxOf v) (a.nonInputs.idxOf y))) := by
  unfold demandStep
  simp only [hl, bind, Except.bind, pure, Except.pure]
  refine ⟨_, _, rfl, ?_, ?_⟩
  · intro r hr
    constructor
    · funext c
      split_ifs <;> simp [setOne, zeroRow, hr]
    · funext c
      split_ifs <;> simp [setOne, zeroRow, hr]
  · intro y hy hvn
    have hd : ∀ h : v ∉ a.og.inputs, (a.nonInputs.idxOf y = a.nonInputs.idxOf v ↔ v = y) := by
      intro h
      exact ⟨fun e => (idxOf_inj' hy ((mem_nonInputs a).2 ⟨hvn, h⟩) e).symm, fun e => by rw [e]⟩
    have hd' : v ∈ a.og.inputs → v ≠ y := fun h e => ((mem_nonInputs a).1 hy).2 (e ▸ h)
    by_cases hi : v ∈ a.og.inputs
    · have := hd' hi
      rcases l with p | p <;> cases p <;> simp [setOne, zeroRow, hi, this, fdEntry, odEntry]
    · have := hd hi
      rcases l with p | p <;> cases p <;> simp [setOne, zeroRow, hi, this, fdEntry, odEntry]

theorem demandLoop_ok (lab : ℕ → Label) : ∀ (l : List ℕ) (fd od : GF2), l.Nodup →
    (∀ v ∈ l, v ∈ a.nonOutputs ∧ a.nodeLabel v = .ok (lab v)) →
    ∃ fd' od', a.demandLoop l (fd, od) = .ok (fd', od') ∧
      (∀ r, (∀ v ∈ l, r ≠ a.nonOutputs.idxOf v) → fd' r = fd r ∧ od' r = od r) ∧
      (∀ v ∈ l, ∀ y, y ∈ a.nonInputs →
        fd' (a.nonOutputs.idxOf v) (a.nonInputs.idxOf y) =
          fdEntry (lab v) (decide (v = y)) (fd (a.nonOutputs.idxOf v) (a.nonInputs.idxOf y)) ∧
        od' (a.nonOutputs.idxOf v) (a.nonInputs.idxOf y) =
          odEntry (lab v) (decide (v = y)) (od (a.nonOutputs.idxOf v) (a.nonInputs.idxOf y)))
  | [], fd, od, _, _ => ⟨fd, od, rfl, fun _ _ => ⟨rfl, rfl⟩, by simp⟩
  | v :: l, fd, od, hnd, hv => by
    rw [List.nodup_cons] at hnd
    obtain ⟨f1, o1, h1, h2, h3⟩ := demandStep_ok a (hv v (by simp)).2 fd od
    obtain ⟨f2, o2, h4, h5, h6⟩ := demandLoop_ok lab l f1 o1 hnd.2 (fun w hw => hv w (List.mem_cons_of_mem _ hw))
    have hvo := (hv v (by simp)).1
    have hne : ∀ w ∈ l, a.nonOutputs.idxOf v ≠ a.nonOutputs.idxOf w := fun w hw e =>
      hnd.1 ((idxOf_inj' hvo (hv w (List.mem_cons_of_mem _ hw)).1 e) ▸ hw)
    refine ⟨f2, o2, ?_, ?_, ?_⟩
    · unfold demandLoop
      simp only [h1, bind, Except.bind]
      exact h4
    · intro r hr
      obtain ⟨e1, e2⟩ := h5 r fun w hw => hr w (List.mem_cons_of_mem _ hw)
      obtain ⟨e3, e4⟩ := h2 r (hr v (by simp))
      exact ⟨e1.trans e3, e2.trans e4⟩
    · intro w hw y hy
      rcases List.mem_cons.1 hw with rfl | hw
      · obtain ⟨e1, e2⟩ := h5 _ hne
        rw [e1, e2]
        exact h3 y hy ((mem_nonOutputs a).1 hvo).1
      · obtain ⟨e1, e2⟩ := h2 (a.nonOutputs.idxOf w) (hne w hw).symm
        rw [← e1, ← e2]
        exact h6 w hw y hy

/-- The measurement label of a measured node. -/
def labelOf (og : OpenGraph) (v : ℕ) : Label :=
  match og.measurements.get? v with
  | some m => m.toPlaneOrAxis
  | none => .axis .X

theorem ogMatrices_ok (hv : a.og.Valid) (hpl : a.planar = true → ∀ kv ∈ a.og.measurements, ∃ b, kv.2 = .bloch b) :
    ∃ fd od, a.ogMatrices = .ok (fd, od) ∧ ∀ v ∈ a.nonOutputs, ∀ y ∈ a.nonInputs,
      fd (a.nonOutputs.idxOf v) (a.nonInputs.idxOf y) =
        fdEntry (labelOf a.og v) (decide (v = y)) (if a.og.Adj v y then 1 else 0) ∧
      od (a.nonOutputs.idxOf v) (a.nonInputs.idxOf y) =
        odEntry (labelOf a.og v) (decide (v = y)) (if a.og.Adj v y then 1 else 0) := by
  have hlab : ∀ v ∈ a.nonOutputs, a.nodeLabel v = .ok (labelOf a.og v) := by
    intro v hvo
    have hm : v ∈ a.og.measurements.keys := by
      have h := (OpenGraph.postInit_ok hv.post).1
      rw [← List.mem_toFinset, h]
      simpa using (mem_nonOutputs a).1 hvo
    rw [← PyDict.get?_isSome_iff] at hm
    obtain ⟨m, hm⟩ := Option.isSome_iff_exists.1 hm
    unfold nodeLabel labelOf
    by_cases hp : a.planar = true
    · obtain ⟨b, hb⟩ := hpl hp _ (PyDict.mem_of_get? hm)
      simp only at hb
      subst hb
      simp only [hp, if_true, OpenGraph.plane, hm, Measurement.toPlane, bind, Except.bind, pure, Except.pure, Measurement.toPlaneOrAxis]
    · rw [if_neg hp]
      simp only [OpenGraph.label, hm]
  obtain ⟨fd, od, h1, -, h3⟩ := demandLoop_ok a (labelOf a.og) a.nonOutputs a.reducedAdj a.reducedAdj a.nonOutputs_nodup
    (fun v h => ⟨h, hlab v h⟩)
  refine ⟨fd, od, h1, fun v hvo y hy => ?_⟩
  rw [← reducedAdj_apply a v y hvo hy]
  exact h3 v hvo y hy

end Aog

/-! ### Sets as vectors -/

/-- Parity of the number of neighbours of `v` in the support of `x`, in `NI`. -/
def oddV (og : OpenGraph) (NI : Finset ℕ) (x : ℕ → ZMod 2) (v : ℕ) : ZMod 2 := ∑ k ∈ NI, (if og.Adj v k then 1 else 0) * x k

/-- What the row of `v` of the flow-demand matrix measures. -/
def demM (og : OpenGraph) (NI : Finset ℕ) (v : ℕ) (x : ℕ → ZMod 2) : ZMod 2 :=
  match Aog.labelOf og v with
  | .plane .XY | .axis .X => oddV og NI x v
  | .plane .XZ | .plane .YZ | .axis .Z => x v
  | .axis .Y => oddV og NI x v + x v

/-- What the row of `v` of the order-demand matrix measures. -/
def demN (og : OpenGraph) (NI : Finset ℕ) (v : ℕ) (x : ℕ → ZMod 2) : ZMod 2 :=
  match Aog.labelOf og v with
  | .plane .XY => x v
  | .plane .XZ => oddV og NI x v + x v
  | .plane .YZ => oddV og NI x v
  | .axis _ => 0

theorem oddV_add (og : OpenGraph) (NI : Finset ℕ) (x y : ℕ → ZMod 2) (v : ℕ) :
    oddV og NI (fun k => x k + y k) v = oddV og NI x v + oddV og NI y v := by
  unfold oddV
  rw [← Finset.sum_add_distrib]
  exact Finset.sum_congr rfl fun _ _ => by ring

theorem oddV_sum (og : OpenGraph) (NI B : Finset ℕ) (x : ℕ → ℕ → ZMod 2) (v : ℕ) :
    oddV og NI (fun k => ∑ b ∈ B, x b k) v = ∑ b ∈ B, oddV og NI (x b) v := by
  unfold oddV
  rw [Finset.sum_comm]
  exact Finset.sum_congr rfl fun _ _ => by rw [Finset.mul_sum]

theorem demM_add_sum (og : OpenGraph) (NI B : Finset ℕ) (x : ℕ → ZMod 2) (y : ℕ → ℕ → ZMod 2) (v : ℕ) :
    demM og NI v (fun k => x k + ∑ b ∈ B, y b k) = demM og NI v x + ∑ b ∈ B, demM og NI v (y b) := by
  unfold demM
  have h := oddV_add og NI x (fun k => ∑ b ∈ B, y b k) v
  rw [oddV_sum] at h
  rcases Aog.labelOf og v with p | p <;> cases p <;> simp only [h, Finset.sum_add_distrib] <;> ring

theorem demN_add_sum (og : OpenGraph) (NI B : Finset ℕ) (x : ℕ → ZMod 2) (y : ℕ → ℕ → ZMod 2) (v : ℕ) :
    demN og NI v (fun k => x k + ∑ b ∈ B, y b k) = demN og NI v x + ∑ b ∈ B, demN og NI v (y b) := by
  unfold demN
  have h := oddV_add og NI x (fun k => ∑ b ∈ B, y b k) v
  rw [oddV_sum] at h
  rcases Aog.labelOf og v with p | p <;> cases p <;> simp only [h, Finset.sum_add_distrib] <;> (try ring) <;> simp

/-- Indicator of a set. -/
def indV (s : Finset ℕ) (k : ℕ) : ZMod 2 := if k ∈ s then 1 else 0

theorem indV_eq_one {s : Finset ℕ} {k : ℕ} : indV s k = 1 ↔ k ∈ s := by unfold indV; split <;> simp_all

theorem oddV_indV (og : OpenGraph) {NI s : Finset ℕ} (hs : s ⊆ NI) (v : ℕ) : oddV og NI (indV s) v = 1 ↔ og.InOdd s v := by
  have h : oddV og NI (indV s) v = ((s.filter (og.Adj v)).card : ZMod 2) := by
    unfold oddV indV
    rw [Finset.card_eq_sum_ones, Nat.cast_sum, Finset.sum_filter]
    rw [← Finset.sum_subset hs]
    · refine Finset.sum_congr rfl fun k hk => ?_
      by_cases h : og.Adj v k <;> simp [h, hk]
    · intro k _ hk; simp [hk]
  rw [h, ZMod.natCast_eq_one_iff_odd]
  rfl

end Graphix
