import Verif.Model.GraphSim
import Verif.Proofs.CliffordKet

/-! # The operations of the graph-state simulator, attribute by attribute -/

namespace Graphix

open Function

/-- The gate described by the attributes of a node: `H^hollow S^loop Z^sign`. -/
noncomputable def GNode.mat (a : GNode) : Mat2 := powB Ops.H a.hollow * powB Ops.S a.loop * powB Ops.Z a.sign

namespace GNode

def adv (a : GNode) : GNode := if a.loop then ⟨!a.sign, false, a.hollow⟩ else ⟨a.sign, true, a.hollow⟩
def flip (a : GNode) : GNode := ⟨!a.sign, a.loop, a.hollow⟩

end GNode

namespace GraphState

/-- The state represented by a graph with attributes: the graph state, then on each node
`Z` if it has a sign, `S` if it has a loop, `H` if it is hollow. -/
noncomputable def state (g : GraphState) : QState :=
  locOps (fun n => (g.attr n).mat) g.nodes (graphKet g.adj g.nodes)

/-- A simple graph. -/
def Wf (g : GraphState) : Prop := SimpleOn g.adj g.nodes

theorem vopOf_matrix (a : GNode) : MatPhaseEq a.mat (vopOf a).matrix := by
  have hm : a.mat = (if a.hollow then Clifford.H else .I).matrix * (if a.loop then Clifford.S else .I).matrix *
      (if a.sign then Clifford.Z else .I).matrix := by
    unfold GNode.mat powB
    rcases a with ⟨s, l, h⟩
    cases s <;> cases l <;> cases h <;>
      simp [Clifford.matrix_I, Clifford.matrix_H, Clifford.matrix_S, Clifford.matrix_Z]
  rw [hm]
  refine ((MatPhaseEq.mul (Clifford.mul_matrix _ _) (MatPhaseEq.refl _)).trans (Clifford.mul_matrix _ _)).trans
    (MatPhaseEq.of_eq ?_)
  congr 1
  rcases a with ⟨s, l, h⟩
  cases s <;> cases l <;> cases h <;> decide

/-- The state with Clifford gates in place of the attributes. -/
theorem state_cket (g : GraphState) :
    PhaseEq g.state (cket (fun n => vopOf (g.attr n)) g.adj g.nodes (prepAll g.nodes)) :=
  (locOps_phase fun _ _ => vopOf_matrix _).state _

/-- The conclusion shared by the rewriting lemmas. -/
theorem state_of_cket {g g' : GraphState} {ψ : QState} (hn : g'.nodes = g.nodes) {F : ℕ → Clifford}
    (h : PhaseEq ψ (cket F g'.adj g.nodes (prepAll g.nodes))) (hF : ∀ n ∈ g.nodes, F n = vopOf (g'.attr n)) :
    PhaseEq g'.state ψ := by
  refine (state_cket g').trans (PhaseEq.symm (h.trans ?_))
  rw [hn]
  exact PhaseEq.of_eq (cket_congr hF (fun _ _ _ _ => rfl) _)

theorem mem_nbrs {g : GraphState} (h : g.Wf) {u i : ℕ} : i ∈ g.nbrs u ↔ g.adj u i = true := by
  unfold nbrs
  rw [List.mem_filter]
  exact ⟨fun h => h.2, fun hi => ⟨h.mem i u (by rw [h.symm]; exact hi), hi⟩⟩

theorem nbrs_nodup {g : GraphState} (h : g.Wf) (u : ℕ) : (g.nbrs u).Nodup := h.nodup.filter _

theorem nbrs_eq_nil {g : GraphState} (h : g.Wf) {u : ℕ} : g.nbrs u = [] ↔ ∀ x, g.adj u x = false := by
  rw [List.eq_nil_iff_forall_not_mem]
  exact forall_congr' fun x => by rw [mem_nbrs h]; simp

theorem flipSign_eq (g : GraphState) (i : ℕ) :
    g.flipSign i = { g with attr := fun k => if k = i then (g.attr k).flip else g.attr k } := rfl

theorem advance_eq (g : GraphState) (i : ℕ) :
    g.advance i = { g with attr := fun k => if k = i then (g.attr k).adv else g.attr k } := by
  unfold advance flipSign modAttr GNode.adv
  by_cases h : (g.attr i).loop = true
  · rw [if_pos h]
    congr 1
    funext k
    by_cases hk : k = i
    · subst hk; simp [h]
    · simp [hk]
  · rw [if_neg h]
    congr 1
    funext k
    by_cases hk : k = i
    · subst hk; simp [h]
    · simp [hk]

theorem foldl_attr {op : GraphState → ℕ → GraphState} {f : GNode → GNode}
    (hop : ∀ g i, op g i = { g with attr := fun k => if k = i then f (g.attr k) else g.attr k }) {l : List ℕ} (hl : l.Nodup)
    (g : GraphState) : l.foldl op g = { g with attr := fun k => if k ∈ l then f (g.attr k) else g.attr k } := by
  induction l generalizing g with
  | nil => simp
  | cons i l ih =>
    rw [List.nodup_cons] at hl
    rw [List.foldl_cons, hop, ih hl.2]
    congr 1
    funext k
    by_cases hk : k = i
    · subst hk; simp [hl.1]
    · simp [hk]

theorem flipSignNbrs_eq {g : GraphState} (h : g.Wf) (u : ℕ) :
    g.flipSignNbrs u = { g with attr := fun k => if g.adj u k then (g.attr k).flip else g.attr k } := by
  unfold flipSignNbrs
  rw [foldl_attr flipSign_eq (nbrs_nodup h u)]
  simp only [mem_nbrs h]

theorem advanceNbrs_eq {g : GraphState} (h : g.Wf) (u : ℕ) :
    g.advanceNbrs u = { g with attr := fun k => if g.adj u k then (g.attr k).adv else g.attr k } := by
  unfold advanceNbrs
  rw [foldl_attr advance_eq (nbrs_nodup h u)]
  simp only [mem_nbrs h]

theorem localComplement_eq (g : GraphState) (u : ℕ) : g.localComplement u = { g with adj := locComp g.adj u } := by
  unfold localComplement locComp
  congr 1
  funext x y
  cases g.adj u x <;> cases g.adj u y <;> by_cases hxy : x = y <;> simp [hxy]

theorem flipFill_eq (g : GraphState) (i : ℕ) :
    g.flipFill i = { g with attr := fun k => if k = i then { g.attr k with hollow := !(g.attr k).hollow } else g.attr k } := rfl

theorem wf_mk {g : GraphState} (h : g.Wf) (attr : ℕ → GNode) : Wf ⟨g.nodes, attr, g.adj⟩ := h
theorem wf_lc {g : GraphState} (h : g.Wf) (attr : ℕ → GNode) (u : ℕ) : Wf ⟨g.nodes, attr, locComp g.adj u⟩ :=
  locComp_simple h u

theorem ite_mk (c : Prop) [Decidable c] (n : List ℕ) (a1 a2 : ℕ → GNode) (ad : ℕ → ℕ → Bool) :
    (if c then (⟨n, a1, ad⟩ : GraphState) else ⟨n, a2, ad⟩) = ⟨n, fun k => if c then a1 k else a2 k, ad⟩ := by
  split <;> rfl

/-! ### The rewritings as new attributes and adjacency -/

theorem h_eq {g : GraphState} {u : ℕ} (hu : u ∈ g.nodes) :
    g.h u = .ok { g with attr := fun k => if k = u then { g.attr k with hollow := !(g.attr k).hollow } else g.attr k } := by
  unfold h
  simp only [hu, not_true_eq_false, if_false, bind, Except.bind, pure, Except.pure]
  rfl

theorem z_eq {g : GraphState} (h : g.Wf) {u : ℕ} (hu : u ∈ g.nodes) :
    g.z u = .ok { g with attr := fun k =>
      if k = u then (if (g.attr u).hollow && !(g.attr u).loop then g.attr k else (g.attr k).flip)
      else if (g.attr u).hollow && g.adj u k then (g.attr k).flip else g.attr k } := by
  unfold z
  simp only [hu, not_true_eq_false, if_false, bind, Except.bind, pure, Except.pure]
  rw [flipSignNbrs_eq h]
  by_cases hh : (g.attr u).hollow = true
  · rw [if_pos hh]
    simp only [flipSign_eq]
    have hl : (if g.adj u u = true then (g.attr u).flip else g.attr u).loop = (g.attr u).loop := by
      rw [h.irrefl]; rfl
    rw [hl]
    by_cases hlp : (g.attr u).loop = true
    · rw [if_pos hlp]
      congr 2
      funext k
      by_cases hk : k = u
      · subst hk; simp [h.irrefl, hh, hlp]
      · simp [hk, hh]
    · rw [if_neg hlp]
      congr 2
      funext k
      by_cases hk : k = u
      · subst hk; simp [h.irrefl, hh, hlp]
      · simp [hk, hh]
  · rw [if_neg hh, flipSign_eq]
    congr 2
    funext k
    by_cases hk : k = u
    · subst hk; simp [hh]
    · simp [hk, hh]

theorem s_eq {g : GraphState} (h : g.Wf) {u : ℕ} (hu : u ∈ g.nodes) :
    g.s u = .ok (
      if (g.attr u).hollow then
        { g with
          attr := fun k =>
            if k = u then ⟨(g.attr k).sign, false, !(g.attr u).loop⟩
            else if g.adj u k then
              (if !(g.attr u).loop && (g.attr u).sign then (g.attr k).adv.flip else (g.attr k).adv)
            else g.attr k
          adj := locComp g.adj u }
      else { g with attr := fun k => if k = u then (g.attr k).adv else g.attr k }) := by
  have hlc := locComp_nbr g.adj h.irrefl u
  unfold s
  simp only [hu, not_true_eq_false, if_false, bind, Except.bind, pure, Except.pure]
  by_cases hh : (g.attr u).hollow = true
  · rw [if_pos hh, if_pos hh]
    by_cases hlp : (g.attr u).loop = true
    · rw [if_pos hlp]
      simp only [localComplement_eq, flipFill_eq, modAttr]
      rw [advanceNbrs_eq (wf_lc h _ u)]
      simp only [hlc]
      congr 2
      funext k
      by_cases hk : k = u
      · subst hk; simp [h.irrefl, hh, hlp]
      · simp [hk, hlp]
    · rw [if_neg hlp]
      simp only [localComplement_eq]
      rw [advanceNbrs_eq (wf_lc h _ u)]
      simp only [hlc]
      rw [flipSignNbrs_eq (wf_lc h _ u)]
      simp only [hlc, h.irrefl]
      rw [ite_mk]
      congr 2
      funext k
      by_cases hk : k = u
      · subst hk
        rcases ha : g.attr k with ⟨s, l, hh'⟩
        cases s <;> simp_all [h.irrefl]
      · cases hs : (g.attr u).sign <;> cases hadj : g.adj u k <;> simp [hk, hs, hlp]
  · rw [if_neg hh, if_neg hh, advance_eq]

theorem e1_eq {g : GraphState} (h : g.Wf) {u : ℕ} (hu : u ∈ g.nodes) (hl : (g.attr u).loop = true) :
    g.equivalentGraphE1 u = .ok
      { g with
        attr := fun k =>
          if k = u then ⟨!(g.attr k).sign, true, !(g.attr k).hollow⟩
          else if g.adj u k then (if (g.attr u).sign then (g.attr k).adv else (g.attr k).adv.flip)
          else g.attr k
        adj := locComp g.adj u } := by
  have hlc := locComp_nbr g.adj h.irrefl u
  unfold equivalentGraphE1
  simp only [hu, hl, not_true_eq_false, Bool.not_true, Bool.false_eq_true, if_false, bind, Except.bind, pure, Except.pure]
  simp only [localComplement_eq, flipFill_eq]
  rw [advanceNbrs_eq (wf_lc h _ u)]
  simp only [hlc, flipSign_eq]
  rw [flipSignNbrs_eq (wf_lc h _ u)]
  simp only [hlc, h.irrefl]
  rw [ite_mk]
  congr 2
  funext k
  by_cases hk : k = u
  · subst hk
    rcases ha : g.attr k with ⟨s, l, hh'⟩
    cases s <;> simp_all [h.irrefl, GNode.flip]
  · cases hs : (g.attr u).sign <;> cases hadj : g.adj u k <;> simp [hk, hs, GNode.flip]

theorem e2_eq {g : GraphState} (h : g.Wf) {u v : ℕ} (huv : g.adj u v = true) (hu : (g.attr u).loop = false)
    (hv : (g.attr v).loop = false) :
    g.equivalentGraphE2 u v = .ok
      { g with
        attr := fun k =>
          if k = u then ⟨(g.attr v).sign, false, !(g.attr u).hollow⟩
          else if k = v then ⟨(g.attr u).sign, false, !(g.attr v).hollow⟩
          else ⟨Bool.xor (g.attr k).sign (Bool.xor (g.adj u k && g.adj v k)
              (Bool.xor ((g.attr u).sign && g.adj v k) ((g.attr v).sign && g.adj u k))),
            (g.attr k).loop, (g.attr k).hollow⟩
        adj := pivotSwap g.adj u v } := by
  have hne : u ≠ v := by rintro rfl; rw [h.irrefl] at huv; cases huv
  have hvu : g.adj v u = true := by rw [h.symm]; exact huv
  have hp := locComp_pivot h huv
  have hmu := h.mem u v huv
  have hmv := h.mem v u hvu
  have hs := pivotSwap_simple h hmu hmv
  have nu : ∀ k, pivotSwap g.adj u v u k = if k = u then false else if k = v then true else g.adj v k := by
    intro k
    unfold pivotSwap
    rw [if_pos (by tauto), Equiv.swap_apply_left]
    by_cases hk : k = u
    · subst hk; rw [Equiv.swap_apply_left, h.irrefl, if_pos rfl]
    · rw [if_neg hk]
      by_cases hkv : k = v
      · subst hkv; rw [Equiv.swap_apply_right, hvu, if_pos rfl]
      · rw [if_neg hkv, Equiv.swap_apply_of_ne_of_ne hk hkv]
  have nv : ∀ k, pivotSwap g.adj u v v k = if k = v then false else if k = u then true else g.adj u k := by
    intro k
    unfold pivotSwap
    rw [if_pos (by tauto), Equiv.swap_apply_right]
    by_cases hk : k = v
    · subst hk; rw [Equiv.swap_apply_right, h.irrefl, if_pos rfl]
    · rw [if_neg hk]
      by_cases hkv : k = u
      · subst hkv; rw [Equiv.swap_apply_left, huv, if_pos rfl]
      · rw [if_neg hkv, Equiv.swap_apply_of_ne_of_ne hkv hk]
  unfold equivalentGraphE2
  simp only [huv, hu, hv, Bool.or_self, Bool.not_true, Bool.false_eq_true, if_false, bind, Except.bind, pure, Except.pure]
  simp only [localComplement_eq, flipFill_eq, hp]
  rw [foldl_attr flipSign_eq (h.nodup.filter _)]
  have hfil : ∀ k, k ∈ g.nodes.filter (fun i => pivotSwap g.adj u v u i && pivotSwap g.adj u v v i) ↔
      (pivotSwap g.adj u v u k && pivotSwap g.adj u v v k) = true := by
    intro k
    rw [List.mem_filter]
    refine ⟨fun h => h.2, fun hk => ⟨?_, hk⟩⟩
    rw [Bool.and_eq_true] at hk
    exact hs.mem k u (by rw [hs.symm]; exact hk.1)
  simp only [hfil, flipSign_eq]
  rw [flipSignNbrs_eq (g := ⟨g.nodes, _, pivotSwap g.adj u v⟩) hs]
  simp only []
  rw [ite_mk]
  rw [flipSignNbrs_eq (g := ⟨g.nodes, _, pivotSwap g.adj u v⟩) hs, ite_mk]
  congr 2
  funext k
  by_cases hku : k = u
  · subst hku
    cases hsu : (g.attr k).sign <;> cases hsv : (g.attr v).sign <;> simp [nu, nv, hne, hsu, hsv, hu, GNode.flip]
  · by_cases hkv : k = v
    · subst hkv
      cases hsu : (g.attr u).sign <;> cases hsv : (g.attr k).sign <;> simp [nu, nv, hku, hsu, hsv, hv, GNode.flip, hne.symm]
    · cases hsu : (g.attr u).sign <;> cases hsv : (g.attr v).sign <;> cases hau : g.adj u k <;> cases hav : g.adj v k <;>
        cases ha : g.attr k <;>
        simp [nu, nv, hku, hkv, hau, hav, ha, GNode.flip]

end GraphState

end Graphix
