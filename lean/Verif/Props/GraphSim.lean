import Verif.Proofs.GraphSim
import Verif.Props.Simulator
import Verif.Proofs.Pauli

/-!
# C34: the graph-state simulator

`GraphState.state` (`Proofs/GraphSim.lean`, `Spec/GraphState.lean`) is the state represented by a graph with
attributes: `|+⟩` on every node, a controlled Z for every edge, then on each node `Z` if it has a sign, `S` if it
has a loop, `H` if it is hollow.  `GraphState.Wf` says that the graph is simple.
-/

namespace Graphix

open Function

namespace GraphState

theorem op1_state_cket {g : GraphState} (h : g.Wf) {u : ℕ} (hu : u ∈ g.nodes) (C : Clifford) :
    PhaseEq (op1 C.matrix u g.state)
      (cket (update (fun n => vopOf (g.attr n)) u (C.mul (vopOf (g.attr u)))) g.adj g.nodes (prepAll g.nodes)) :=
  ((state_cket g).op1 _ _).trans (op1_cket h.nodup hu C)

theorem vop_adv (a : GNode) : (vopOf a).mul .S = vopOf a.adv := by
  rcases a with ⟨s, l, h⟩; cases s <;> cases l <;> cases h <;> decide
theorem vop_flip (a : GNode) : (vopOf a).mul .Z = vopOf a.flip := by
  rcases a with ⟨s, l, h⟩; cases s <;> cases l <;> cases h <;> decide
theorem vop_I (c : Clifford) : c.mul .I = c := by
  have : ∀ c : Fin 24, (Clifford.ofFin c).mul .I = Clifford.ofFin c := by decide
  exact this c

/-- **C34** `h(node)` applies the Hadamard gate. -/
theorem C34_h (g : GraphState) (h : g.Wf) (u : ℕ) (hu : u ∈ g.nodes) :
    ∃ g', g.h u = .ok g' ∧ g'.Wf ∧ g'.nodes = g.nodes ∧ PhaseEq g'.state (op1 Ops.H u g.state) := by
  refine ⟨_, h_eq hu, h, rfl, ?_⟩
  rw [← Clifford.matrix_H]
  refine state_of_cket (g := g) rfl (op1_state_cket h hu _) fun n hn => ?_
  by_cases hnu : n = u
  · subst hnu
    rw [update_self]
    rcases ha : g.attr n with ⟨s, l, hh⟩
    simp only [if_true, ha]
    cases s <;> cases l <;> cases hh <;> decide
  · rw [update_of_ne hnu]; simp [hnu]

/-- **C34** `z(node)` applies the Z gate. -/
theorem C34_z (g : GraphState) (h : g.Wf) (u : ℕ) (hu : u ∈ g.nodes) :
    ∃ g', g.z u = .ok g' ∧ g'.Wf ∧ g'.nodes = g.nodes ∧ PhaseEq g'.state (op1 Ops.Z u g.state) := by
  refine ⟨_, z_eq h hu, h, rfl, ?_⟩
  rw [← Clifford.matrix_Z]
  refine state_of_cket (g := g) rfl ((op1_state_cket h hu _).trans
    (cket_stab _ h hu (prepAll_noBit _ _) (g.attr u).hollow)) fun n hn => ?_
  unfold stabK
  by_cases hnu : n = u
  · subst hnu
    rw [update_self]
    simp only [if_true]
    rcases ha : g.attr n with ⟨s, l, hh⟩
    cases s <;> cases l <;> cases hh <;> decide
  · rw [update_of_ne hnu]
    simp only [hnu, if_false]
    cases hh : (g.attr u).hollow <;> cases hadj : g.adj u n <;> simp [vop_I, vop_flip]

/-- **C34** `equivalent_graph_e1(node)` leaves the represented state unchanged; it flips the fill of the node and
requires a loop. -/
theorem C34_e1 (g : GraphState) (h : g.Wf) (u : ℕ) (hu : u ∈ g.nodes) :
    ((g.attr u).loop = false → g.equivalentGraphE1 u = .error .valueError) ∧
    ((g.attr u).loop = true → ∃ g', g.equivalentGraphE1 u = .ok g' ∧ g'.Wf ∧ g'.nodes = g.nodes ∧
      (g'.attr u).hollow = !(g.attr u).hollow ∧ PhaseEq g'.state g.state) := by
  refine ⟨fun hl => ?_, fun hl => ⟨_, e1_eq h hu hl, locComp_simple h u, rfl, by simp, ?_⟩⟩
  · unfold equivalentGraphE1; simp [hu, hl, bind, Except.bind, throw, throwThe, MonadExceptOf.throw]
  refine state_of_cket (g := g) rfl (((state_cket g).trans (cket_lc _ h hu (prepAll_noBit _ _))).trans
    (cket_stab _ (locComp_simple h u) hu (prepAll_noBit _ _) (!(g.attr u).sign))) fun n hn => ?_
  unfold stabK lcK
  rw [locComp_nbr g.adj h.irrefl]
  by_cases hnu : n = u
  · subst hnu
    simp only [if_true]
    rcases ha : g.attr n with ⟨s, l, hh⟩
    rw [ha] at hl
    obtain rfl : l = true := hl
    cases s <;> cases hh <;> decide
  · simp only [hnu, if_false]
    cases hs : (g.attr u).sign <;> cases hadj : g.adj u n <;> simp [vop_I, vop_adv, vop_flip]

/-- **C34** `equivalent_graph_e2(node1, node2)` leaves the represented state unchanged; it flips the fill of both
nodes and requires an edge without loops. -/
theorem C34_e2 (g : GraphState) (h : g.Wf) (u v : ℕ) :
    (g.adj u v = false → g.equivalentGraphE2 u v = .error .valueError) ∧
    (g.adj u v = true → ((g.attr u).loop = true ∨ (g.attr v).loop = true) →
      g.equivalentGraphE2 u v = .error .valueError) ∧
    (g.adj u v = true → (g.attr u).loop = false → (g.attr v).loop = false →
      ∃ g', g.equivalentGraphE2 u v = .ok g' ∧ g'.Wf ∧ g'.nodes = g.nodes ∧
        (g'.attr u).hollow = (!(g.attr u).hollow) ∧ PhaseEq g'.state g.state) := by
  refine ⟨fun ha => ?_, fun ha hl => ?_, fun huv hlu hlv => ?_⟩
  · unfold equivalentGraphE2; simp [ha, bind, Except.bind, throw, throwThe, MonadExceptOf.throw]
  · unfold equivalentGraphE2
    rcases hl with hl | hl <;> simp [ha, hl, bind, Except.bind, throw, throwThe, MonadExceptOf.throw]
  have hne : u ≠ v := by rintro rfl; rw [h.irrefl] at huv; cases huv
  have hvu : g.adj v u = true := by rw [h.symm]; exact huv
  have hu := h.mem u v huv
  have hv := h.mem v u hvu
  have hs := pivotSwap_simple h hu hv
  refine ⟨_, e2_eq h huv hlu hlv, hs, rfl, by simp, ?_⟩
  refine state_of_cket (g := g) rfl ((((state_cket g).trans (cket_pivot _ h huv (prepAll_noBit _ _) (prepAll_noBit _ _))).trans
    (cket_stab _ hs hu (prepAll_noBit _ _) (g.attr u).sign)).trans
      (cket_stab _ hs hv (prepAll_noBit _ _) (g.attr v).sign)) fun n hn => ?_
  have nu : ∀ k, k ≠ u → k ≠ v → pivotSwap g.adj u v u k = g.adj v k := by
    intro k h1 h2
    unfold pivotSwap
    rw [if_pos (by tauto), Equiv.swap_apply_left, Equiv.swap_apply_of_ne_of_ne h1 h2]
  have nv : ∀ k, k ≠ u → k ≠ v → pivotSwap g.adj u v v k = g.adj u k := by
    intro k h1 h2
    unfold pivotSwap
    rw [if_pos (by tauto), Equiv.swap_apply_right, Equiv.swap_apply_of_ne_of_ne h1 h2]
  have nuv : pivotSwap g.adj u v u v = true := by
    unfold pivotSwap
    rw [if_pos (by tauto), Equiv.swap_apply_right, Equiv.swap_apply_left]; exact hvu
  have nvu : pivotSwap g.adj u v v u = true := by rw [hs.symm]; exact nuv
  unfold stabK pivK
  by_cases hnu : n = u
  · subst hnu
    simp only [nvu, hne, true_or, if_true, if_false]
    rcases ha : g.attr n with ⟨s, l, hh⟩
    rcases ha' : g.attr v with ⟨s', l', hh'⟩
    rw [ha] at hlu; rw [ha'] at hlv
    obtain rfl : l = false := hlu
    obtain rfl : l' = false := hlv
    cases s <;> cases hh <;> cases s' <;> cases hh' <;> decide
  by_cases hnv : n = v
  · subst hnv
    simp only [nuv, hne.symm, or_true, if_true, if_false]
    rcases ha : g.attr n with ⟨s, l, hh⟩
    rcases ha' : g.attr u with ⟨s', l', hh'⟩
    rw [ha'] at hlu; rw [ha] at hlv
    obtain rfl : l = false := hlv
    obtain rfl : l' = false := hlu
    cases s <;> cases hh <;> cases s' <;> cases hh' <;> decide
  · simp only [hnu, hnv, or_self, if_false, nu n hnu hnv, nv n hnu hnv]
    rcases ha : g.attr n with ⟨s, l, hh⟩
    simp only [ha]
    cases (g.attr u).sign <;> cases (g.attr v).sign <;> cases g.adj u n <;> cases g.adj v n <;>
      cases s <;> cases l <;> cases hh <;> decide

/-! ### The `S` gate -/

/-- The state that `s(node)` should produce, as a graph with gates. -/
theorem s_cket {g : GraphState} (h : g.Wf) {u : ℕ} (hu : u ∈ g.nodes) (hh : (g.attr u).hollow = true)
    (c : Bool) :
    PhaseEq (op1 Ops.S u g.state)
      (cket (fun n => ((update (fun n => vopOf (g.attr n)) u (Clifford.S.mul (vopOf (g.attr u))) n).mul (lcK g.adj u n)).mul
        (stabK (locComp g.adj u) u c n)) (locComp g.adj u) g.nodes (prepAll g.nodes)) := by
  rw [← Clifford.matrix_S]
  exact ((op1_state_cket h hu _).trans (cket_lc _ h hu (prepAll_noBit _ _))).trans
    (cket_stab _ (locComp_simple h u) hu (prepAll_noBit _ _) c)

/-- **C34** (part) `s(node)` applies the S gate, except on a hollow node with a loop and without a sign that has
neighbours (see `C34_s_wrong`). -/
theorem C34_s_partial (g : GraphState) (h : g.Wf) (u : ℕ) (hu : u ∈ g.nodes)
    (hok : (g.attr u).hollow = true → (g.attr u).loop = true → (g.attr u).sign = false → ∀ x, g.adj u x = false) :
    ∃ g', g.s u = .ok g' ∧ g'.Wf ∧ g'.nodes = g.nodes ∧ PhaseEq g'.state (op1 Ops.S u g.state) := by
  by_cases hh : (g.attr u).hollow = true
  · rw [s_eq h hu, if_pos hh]
    refine ⟨_, rfl, locComp_simple h u, rfl, ?_⟩
    have hlc := locComp_nbr g.adj h.irrefl u
    refine state_of_cket (g := g) rfl (s_cket h hu hh (Bool.xor (g.attr u).loop (g.attr u).sign)) fun n hn => ?_
    unfold stabK lcK
    by_cases hnu : n = u
    · subst hnu
      rw [update_self]
      simp only [if_true]
      rcases ha : g.attr n with ⟨s, l, hh'⟩
      rw [ha] at hh
      obtain rfl : hh' = true := hh
      cases s <;> cases l <;> decide
    · rw [update_of_ne hnu]
      simp only [hnu, if_false, hlc]
      cases hadj : g.adj u n with
      | false => simp [vop_I]
      | true =>
        cases hl : (g.attr u).loop <;> cases hs : (g.attr u).sign <;> simp [vop_I, vop_adv, vop_flip]
        exact absurd (hok hh hl hs n) (by rw [hadj]; simp)
  · rw [s_eq h hu, if_neg hh]
    refine ⟨_, rfl, h, rfl, ?_⟩
    rw [← Clifford.matrix_S]
    refine state_of_cket (g := g) rfl (op1_state_cket h hu _) fun n hn => ?_
    by_cases hnu : n = u
    · subst hnu
      rw [update_self]
      simp only [if_true]
      rcases ha : g.attr n with ⟨s, l, hh'⟩
      rw [ha] at hh
      cases hh' with
      | true => exact absurd rfl hh
      | false => cases s <;> cases l <;> decide
    · rw [update_of_ne hnu]; simp [hnu]

theorem locOps_cancel (F : ℕ → Clifford) {l : List ℕ} (hl : l.Nodup) {ψ φ : QState}
    (h : PhaseEq (locOps (fun n => (F n).matrix) l ψ) (locOps (fun n => (F n).matrix) l φ)) : PhaseEq ψ φ := by
  have inv : ∀ χ, locOps (fun n => (F n).matrix.conjTranspose) l (locOps (fun n => (F n).matrix) l χ) = χ := by
    intro χ
    rw [locOps_mul _ _ hl, locOps_congr (G := fun _ => 1) (fun n _ => Clifford.matrix_unitary _), locOps_one]
  obtain ⟨c, hc, e⟩ := h
  refine ⟨c, hc, ?_⟩
  rw [← inv ψ, e, locOps_homog, inv]

/-- **C34** (negation) On a hollow node with a loop, without a sign and with at least one neighbour, `s(node)` does
**not** apply the S gate: the represented state after the call is never `S` applied to the state before, even up to
phase. -/
theorem C34_s_wrong (g : GraphState) (h : g.Wf) (u x : ℕ) (hh : (g.attr u).hollow = true)
    (hl : (g.attr u).loop = true) (hs : (g.attr u).sign = false) (hx : g.adj u x = true) (g' : GraphState)
    (hok : g.s u = .ok g') : ¬ PhaseEq g'.state (op1 Ops.S u g.state) := by
  intro hph
  have hu := h.mem u x hx
  have hw := locComp_simple h u
  have hlc := locComp_nbr g.adj h.irrefl u
  rw [s_eq h hu, if_pos hh] at hok
  injection hok with hok
  subst hok
  set F : ℕ → Clifford := fun n => vopOf (if n = u then ⟨(g.attr n).sign, false, !(g.attr u).loop⟩
            else if g.adj u n then
              (if !(g.attr u).loop && (g.attr u).sign then (g.attr n).adv.flip else (g.attr n).adv)
            else g.attr n) with hF
  -- what the gate should give
  have h1 := s_cket h hu hh true
  have h2 : PhaseEq (op1 Ops.S u g.state) (locOps (fun n => (F n).matrix) g.nodes
      (locOps (fun n => powB Ops.Z (g.adj u n)) g.nodes (graphKet (locComp g.adj u) g.nodes))) := by
    refine h1.trans ?_
    rw [locOps_mul _ _ h.nodup]
    have e : ∀ n, (((update (fun n => vopOf (g.attr n)) u (Clifford.S.mul (vopOf (g.attr u))) n).mul (lcK g.adj u n)).mul
        (stabK (locComp g.adj u) u true n)) = (F n).mul (if g.adj u n then .Z else .I) := by
      intro n
      unfold lcK stabK
      rw [hlc, hF]
      by_cases hnu : n = u
      · subst hnu
        rw [update_self, h.irrefl]
        rcases ha : g.attr n with ⟨s', l', hh'⟩
        rw [ha] at hh hl hs
        obtain rfl : hh' = true := hh
        obtain rfl : l' = true := hl
        obtain rfl : s' = false := hs
        simp only [if_true, ha]
        decide
      · rw [update_of_ne hnu]
        simp only [hnu, if_false, hl]
        cases hadj : g.adj u n <;> simp [vop_I, vop_adv, vop_flip]
    refine PhaseEq.trans (PhaseEq.of_eq (cket_congr (fun n _ => e n) (fun _ _ _ _ => rfl) _)) ?_
    refine (locOps_phase fun n _ => ?_).state _
    refine (Clifford.mul_matrix _ _).symm.trans (MatPhaseEq.of_eq ?_)
    unfold powB
    cases g.adj u n <;> simp [Clifford.matrix_I, Clifford.matrix_Z]
  have h3 := ((state_cket _).symm.trans (hph.trans h2))
  obtain ⟨c, -, hc⟩ := locOps_cancel F h.nodup h3
  -- two amplitudes with different signs
  have amp : ∀ b : Basis, graphKet (locComp g.adj u) g.nodes b ≠ 0 := by
    intro b
    unfold graphKet
    rw [entangleAll_apply, prepAll_apply]
    have h1 : sgn (edgePar (locComp g.adj u) g.nodes b) ≠ 0 := by cases edgePar (locComp g.adj u) g.nodes b <;> simp
    have h2 : (1 / (Real.sqrt 2 : ℂ)) ^ g.nodes.length ≠ 0 := pow_ne_zero _ (one_div_ne_zero CMat.sqrt2_ne)
    exact mul_ne_zero h1 h2
  have hval : ∀ b : Basis, c * sgn (xorl g.nodes fun v => g.adj u v && b v) = 1 := by
    intro b
    have := congrFun hc b
    change entangleAll (locComp g.adj u) g.nodes (prepAll g.nodes) b = c * _ at this
    rw [locOps_Z] at this
    have ha := amp b
    unfold graphKet at this ha
    rw [← mul_assoc] at this
    exact mul_right_cancel₀ ha (by rw [one_mul]; exact this.symm)
  have hxm : x ∈ g.nodes := h.mem x u (by rw [h.symm]; exact hx)
  have v0 := hval (fun _ => false)
  have v1 := hval (fun v => decide (x = v))
  have e0 : (xorl g.nodes fun v => g.adj u v && false) = false := by
    rw [xorl_congr (g := fun _ => false) (fun v _ => by simp), xorl_false]
  have e1 : (xorl g.nodes fun v => g.adj u v && decide (x = v)) = true := by
    rw [xorl_congr (g := fun v => decide (x = v) && g.adj u v) (fun v _ => by rw [Bool.and_comm]),
      xorl_single h.nodup hxm, hx]
  rw [e0] at v0
  rw [e1] at v1
  simp only [sgn_false, sgn_true, mul_one, mul_neg] at v0 v1
  rw [v0] at v1
  norm_num at v1

/-! ### Filling a node and measuring -/

/-- **C34** `equivalent_fill_node(node)`, whatever the order of the neighbours: the represented state is unchanged and
the node becomes solid, unless it is isolated, hollow and without a loop (result 1). -/
theorem C34_fill (order : List ℕ → List ℕ) (ho : ∀ l, (order l).Perm l) (g : GraphState) (h : g.Wf) (u : ℕ)
    (hu : u ∈ g.nodes) :
    ∃ r g', g.equivalentFillNode order u = .ok (r, g') ∧ g'.Wf ∧ g'.nodes = g.nodes ∧ PhaseEq g'.state g.state ∧
      (r = 1 ↔ (g.attr u).hollow = true ∧ (g.attr u).loop = false ∧ g.nbrs u = []) ∧
      (r = 2 ↔ (g.attr u).hollow = false ∧ g.nbrs u = []) ∧ r ≤ 2 ∧
      (r ≠ 1 → (g'.attr u).hollow = false) ∧ (r ≠ 0 → g' = g) := by
  unfold equivalentFillNode
  simp only [hu, not_true_eq_false, if_false, bind, Except.bind, pure, Except.pure]
  by_cases hh : (g.attr u).hollow = true
  · rw [if_pos hh]
    by_cases hl : (g.attr u).loop = true
    · rw [if_pos hl]
      obtain ⟨g', e, h1, h2, h3, h4⟩ := (C34_e1 g h u hu).2 hl
      rw [e]
      exact ⟨0, g', rfl, h1, h2, h4, by simp [hl], by simp [hh], by omega, fun _ => by rw [h3, hh]; rfl, by simp⟩
    · rw [if_neg hl]
      have hl' : (g.attr u).loop = false := by simpa using hl
      by_cases hn : g.nbrs u = []
      · rw [if_pos hn]
        exact ⟨1, g, rfl, h, rfl, PhaseEq.refl _, by simp [hh, hl', hn], by simp [hh], by omega, by simp, fun _ => rfl⟩
      · rw [if_neg hn]
        have hmem : ∀ i, i ∈ order (g.nbrs u) → g.adj u i = true := fun i hi => (mem_nbrs h).1 ((ho _).mem_iff.1 hi)
        cases hf : (order (g.nbrs u)).find? (fun i => !(g.attr i).loop) with
        | some i =>
          have hi := hmem i (List.mem_of_find?_eq_some hf)
          have hli : (g.attr i).loop = false := by simpa using List.find?_some hf
          obtain ⟨g', e, h1, h2, h3, h4⟩ := (C34_e2 g h u i).2.2 hi hl' hli
          simp only [e]
          exact ⟨0, g', rfl, h1, h2, h4, by simp [hn], by simp [hh], by omega, fun _ => by rw [h3, hh]; rfl, by simp⟩
        | none =>
          cases ho' : order (g.nbrs u) with
          | nil => exact absurd (by have := (ho (g.nbrs u)).symm; rw [ho'] at this; exact this.eq_nil) hn
          | cons i t =>
            have him : i ∈ order (g.nbrs u) := by rw [ho']; simp
            have hi := hmem i him
            have hli : (g.attr i).loop = true := by simpa using List.find?_eq_none.1 hf i him
            have hiu : g.adj i u = true := by rw [h.symm]; exact hi
            have hne : u ≠ i := by rintro rfl; rw [h.irrefl] at hi; cases hi
            have him' := h.mem i u hiu
            obtain ⟨g1, e, h1, h2, -, h4⟩ := (C34_e1 g h i him').2 hli
            have e' := e1_eq h him' hli
            rw [e] at e'
            injection e' with e'
            have hl1 : (g1.attr u).loop = true := by
              rw [e']
              simp only [hne, if_false, hiu, if_true]
              cases (g.attr i).sign <;> simp [GNode.adv, GNode.flip, hl']
            have hh1 : (g1.attr u).hollow = true := by
              rw [e']
              simp only [hne, if_false, hiu, if_true]
              cases (g.attr i).sign <;> simp [GNode.adv, GNode.flip, hl', hh]
            obtain ⟨g2, e2, k1, k2, k3, k4⟩ := (C34_e1 g1 h1 u (by rw [h2]; exact hu)).2 hl1
            simp only [e, e2]
            exact ⟨0, g2, rfl, k1, by rw [k2, h2], k4.trans h4, by simp [hn], by simp [hh], by omega,
              fun _ => by rw [k3, hh1]; rfl, by simp⟩
  · rw [if_neg hh]
    have hh' : (g.attr u).hollow = false := by simpa using hh
    by_cases hn : g.nbrs u = []
    · rw [if_pos hn]
      exact ⟨2, g, rfl, h, rfl, PhaseEq.refl _, by simp [hh'], by simp [hh', hn], by omega, fun _ => hh', fun _ => rfl⟩
    · rw [if_neg hn]
      exact ⟨0, g, rfl, h, rfl, PhaseEq.refl _, by simp [hh'], by simp [hn], by omega, fun _ => hh', by simp⟩

theorem removeNode_wf {g : GraphState} (h : g.Wf) (u : ℕ) : (g.removeNode u).Wf := by
  refine ⟨h.nodup.erase u, fun x y => ?_, fun x => ?_, fun x y hxy => ?_⟩
  · unfold removeNode
    simp only []
    rw [h.symm x y, Bool.and_assoc, Bool.and_assoc, Bool.and_comm (decide (x ≠ u))]
  · unfold removeNode; simp [h.irrefl]
  · unfold removeNode at hxy ⊢
    simp only [Bool.and_eq_true, decide_eq_true_eq] at hxy
    exact (List.Nodup.mem_erase_iff h.nodup).2 ⟨hxy.1.2, h.mem x y hxy.1.1⟩

theorem removeNode_state {g : GraphState} (h : g.Wf) (u : ℕ) :
    (g.removeNode u).state = locOps (fun n => (g.attr n).mat) (g.nodes.erase u)
      (entangleAll g.adj (g.nodes.erase u) (prepAll (g.nodes.erase u))) := by
  have hue : ∀ x ∈ g.nodes.erase u, x ≠ u := fun x hm => (List.Nodup.mem_erase_iff h.nodup).1 hm |>.1
  unfold state graphKet removeNode
  simp only []
  congr 1
  funext b
  rw [entangleAll_apply, entangleAll_apply, edgePar_congr (fun x hx y hy => ?_) fun _ _ => rfl]
  simp [hue x hx, hue y hy]

theorem mat_flip (a : GNode) : a.mat * Ops.Z = a.flip.mat := by
  have hZ : Ops.Z * Ops.Z = 1 := by unfold Ops.Z; rw [mat2_mul, mat2_one]; norm_num
  unfold GNode.mat GNode.flip powB
  cases a.sign
  · simp
  · simp [Matrix.mul_assoc, hZ]

theorem bra_measZ (s : Bool) : MatPhaseEq (bra (measVec (.pauli ⟨.Z, .plus⟩) s)) (bra (ketB s)) := by
  refine ⟨if s then -Complex.I else 1, by cases s <;> simp, ?_⟩
  cases s <;> apply mat2_ext <;>
    simp [bra, measVec, Measurement.toBloch, PauliMeasurement.toBloch, planarState, ketB, Real.sin_pi_div_two, Real.cos_pi_div_two,
      -Complex.ofReal_cos, -Complex.ofReal_sin, -Complex.ofReal_div]

theorem diag_solid (a : GNode) (h : a.hollow = false) : Mat2.Diag a.mat ∧ ∀ x, ‖a.mat x x‖ = 1 := by
  rcases a with ⟨s, l, hh⟩
  obtain rfl : hh = false := h
  unfold GNode.mat powB Mat2.Diag
  cases s <;> cases l <;> refine ⟨?_, fun x => ?_⟩ <;> (try cases x) <;> simp [Ops.S, Ops.Z, mat2_mul]

theorem norm_sqrt_half : ‖(1 / (Real.sqrt 2 : ℂ))‖ ^ 2 = 1 / 2 := by
  rw [norm_div, Complex.norm_real]
  simp

/-- Projecting a solid node on `|x⟩`. -/
theorem proj_solid {g g2 : GraphState} (h : g.Wf) {u : ℕ} (hu : u ∈ g.nodes) (hs : (g.attr u).hollow = false) (x : Bool)
    (hn : g2.nodes = g.nodes) (ha : g2.adj = g.adj)
    (hattr : ∀ n, n ≠ u → g2.attr n = if x && g.adj u n then (g.attr n).flip else g.attr n) :
    ∃ c : ℂ, ‖c‖ ^ 2 = 1 / 2 ∧ projOut u (ketB x) g.state = c • (g2.removeNode u).state := by
  obtain ⟨hd, hnorm⟩ := diag_solid (g.attr u) hs
  have hw2 : g2.Wf := by unfold Wf; rw [hn, ha]; exact h
  have hue : ∀ y ∈ g.nodes.erase u, y ≠ u := fun y hm => (List.Nodup.mem_erase_iff h.nodup).1 hm |>.1
  refine ⟨(g.attr u).mat x x * (1 / (Real.sqrt 2 : ℂ)), ?_, ?_⟩
  · rw [norm_mul, hnorm, one_mul, norm_sqrt_half]
  · rw [removeNode_state hw2, hn, ha]
    unfold state graphKet
    rw [proj_diag (fun n => (g.attr n).mat) h hu (prepAll_noBit _ _) hd x, prepAll_erase hu, entangleAll_smul, locOps_homog,
      smul_smul]
    congr 1
    refine locOps_congr (fun n hn' => ?_) _
    rw [hattr n (hue n hn')]
    cases x && g.adj u n
    · simp [powB]
    · simp [powB, mat_flip]

theorem projOut_measZ (s : Bool) (u : ℕ) (ψ : QState) :
    PhaseEq (projOut u (measVec (.pauli ⟨.Z, .plus⟩) s) ψ) (projOut u (ketB s) ψ) := by
  rw [projOut_eq_op1, projOut_eq_op1]
  exact (bra_measZ s).op1 u ψ

/-- **C34** `measure_z(node, choice)` projects the node on an eigenvector of Z: the returned outcome has probability 1 or
1/2, the node is removed and the state of the other nodes is the projected one; a node with neighbours has the chosen
outcome. -/
theorem C34_measure_z (order : List ℕ → List ℕ) (ho : ∀ l, (order l).Perm l) (g : GraphState) (h : g.Wf) (u : ℕ)
    (hu : u ∈ g.nodes) (choice : ℕ) :
    (1 < choice → g.measureZ order u choice = .error .valueError) ∧
    (choice ≤ 1 → ∃ res g', g.measureZ order u choice = .ok (res, g') ∧ g'.Wf ∧ g'.nodes = g.nodes.erase u ∧
      (g.nbrs u ≠ [] → res = decide (choice = 1)) ∧
      ∃ c : ℂ, (‖c‖ ^ 2 = 1 ∨ ‖c‖ ^ 2 = 1 / 2) ∧
        projOut u (measVec (.pauli ⟨.Z, .plus⟩) res) g.state = c • g'.state) := by
  refine ⟨fun hc => ?_, fun hc => ?_⟩
  · unfold measureZ
    have : choice ≠ 0 ∧ choice ≠ 1 := by omega
    simp [this, bind, Except.bind, throw, throwThe, MonadExceptOf.throw]
  have hc' : ¬ (choice ≠ 0 ∧ choice ≠ 1) := by omega
  obtain ⟨r, g1, e, h1, h2, h3, h4, h5, h6, h7, h8⟩ := C34_fill order ho g h u hu
  unfold measureZ
  simp only [hc', if_false, bind, Except.bind, pure, Except.pure, e]
  set g2 : GraphState := if choice ≠ 0 then g1.flipSignNbrs u else g1 with hg2
  have hn2 : g2.nodes = g1.nodes := by
    rw [hg2]; split
    · rw [flipSignNbrs_eq h1]
    · rfl
  have ha2 : g2.adj = g1.adj := by
    rw [hg2]; split
    · rw [flipSignNbrs_eq h1]
    · rfl
  have hattr : ∀ n, g2.attr n = if decide (choice = 1) && g1.adj u n then (g1.attr n).flip else g1.attr n := by
    intro n
    rw [hg2]
    by_cases h0 : choice = 0
    · rw [if_neg (by simpa using h0)]; simp [h0]
    · rw [if_pos h0, flipSignNbrs_eq h1]; simp [show choice = 1 by omega]
  have hw2 : g2.Wf := by unfold Wf; rw [hn2, ha2]; exact h1
  have hu1 : u ∈ g1.nodes := by rw [h2]; exact hu
  refine ⟨_, _, rfl, removeNode_wf hw2 u, ?_, fun hn => ?_, ?_⟩
  · show g2.nodes.erase u = _
    rw [hn2, h2]
  · have : r = 0 := by
      have a1 : r ≠ 1 := fun hr => hn (h4.1 hr).2.2
      have a2 : r ≠ 2 := fun hr => hn (h5.1 hr).2
      omega
    simp [this]
  · set res : Bool := if r = 0 then decide (choice = 1) else (g2.attr u).sign with hres
    -- it suffices to project the filled graph on the basis vector
    suffices hs : ∃ c : ℂ, (‖c‖ ^ 2 = 1 ∨ ‖c‖ ^ 2 = 1 / 2) ∧ projOut u (ketB res) g1.state = c • (g2.removeNode u).state by
      obtain ⟨c, hcn, hp⟩ := hs
      obtain ⟨d, hd, hp'⟩ := (projOut_measZ res u g.state).trans (h3.symm.projOut u (ketB res))
      refine ⟨d * c, ?_, ?_⟩
      · rw [norm_mul, hd, one_mul]; exact hcn
      · rw [hp', hp, smul_smul]
    by_cases hr1 : r = 1
    · obtain ⟨hh, hl, hn⟩ := h4.1 hr1
      have hiso := (nbrs_eq_nil h).1 hn
      have hg1 := h8 (by omega)
      subst hg1
      have hsign : res = (g1.attr u).sign := by
        rw [hres, if_neg (by omega), hattr, hiso]; simp
      refine ⟨1, Or.inl (by simp), ?_⟩
      have hs2 : (g2.removeNode u).state = (g1.removeNode u).state := by
        rw [removeNode_state hw2, removeNode_state h, hn2, ha2]
        refine locOps_congr (fun n _ => ?_) _
        rw [hattr, hiso]; simp
      rw [hs2, removeNode_state h, one_smul]
      unfold state graphKet
      rw [proj_isolated _ h hu (prepAll_noBit _ _) hiso, prepAll_erase hu, entangleAll_smul, locOps_homog, smul_smul]
      have hval : (star (ketB res false) * ((g1.attr u).mat false false + (g1.attr u).mat false true) +
          star (ketB res true) * ((g1.attr u).mat true false + (g1.attr u).mat true true)) * (1 / (Real.sqrt 2 : ℂ)) = 1 := by
        rw [hsign]
        have h2' : (Real.sqrt 2 : ℂ) ≠ 0 := CMat.sqrt2_ne
        rcases ha : g1.attr u with ⟨s, l, hh'⟩
        rw [ha] at hh hl
        obtain rfl : hh' = true := hh
        obtain rfl : l = false := hl
        have hsq : (Real.sqrt 2 : ℂ) * (Real.sqrt 2 : ℂ) = 2 := by
          rw [← Complex.ofReal_mul, Real.mul_self_sqrt (by norm_num)]; norm_num
        cases s <;> simp [GNode.mat, powB, ketB, Ops.H, Ops.Z, mat2_mul] <;> field_simp <;> linear_combination -hsq
      rw [hval, one_smul]
    · have hs1 := h7 hr1
      have : ∃ c : ℂ, ‖c‖ ^ 2 = 1 / 2 ∧ projOut u (ketB res) g1.state = c • (g2.removeNode u).state := by
        refine proj_solid h1 hu1 hs1 res hn2 ha2 fun n hnu => ?_
        rw [hattr]
        by_cases hr0 : r = 0
        · rw [hres, if_pos hr0]
        · have hr2 : r = 2 := by omega
          have hg1 := h8 hr0
          have hiso := (nbrs_eq_nil h).1 (h5.1 hr2).2
          rw [hg1, hiso]; simp
      obtain ⟨c, hcn, hp⟩ := this
      exact ⟨c, Or.inr hcn, hp⟩

/-- The probability amplitude of the outcome `x` of an isolated node. -/
theorem isolated_amp (a : GNode) (x : Bool) :
    (a.hollow = true → a.loop = false →
      (star (ketB x false) * (a.mat false false + a.mat false true) +
        star (ketB x true) * (a.mat true false + a.mat true true)) * (1 / (Real.sqrt 2 : ℂ)) = if x = a.sign then 1 else 0) ∧
    (a.hollow = false ∨ a.loop = true →
      ‖(star (ketB x false) * (a.mat false false + a.mat false true) +
        star (ketB x true) * (a.mat true false + a.mat true true)) * (1 / (Real.sqrt 2 : ℂ))‖ ^ 2 = 1 / 2) := by
  have h2' : (Real.sqrt 2 : ℂ) ≠ 0 := CMat.sqrt2_ne
  have hsq : (Real.sqrt 2 : ℂ) * (Real.sqrt 2 : ℂ) = 2 := by
    rw [← Complex.ofReal_mul, Real.mul_self_sqrt (by norm_num)]; norm_num
  have hn : ‖(1 / (Real.sqrt 2 : ℂ))‖ ^ 2 = 1 / 2 := norm_sqrt_half
  have hu : ∀ z : ℂ, ‖z‖ ^ 2 = 1 → ‖z * (1 / (Real.sqrt 2 : ℂ))‖ ^ 2 = 1 / 2 := by
    intro z hz
    rw [norm_mul, mul_pow, hz, hn, one_mul]
  have nI : ∀ z : ℂ, z.re ^ 2 + z.im ^ 2 = 2 → ‖(1 / (Real.sqrt 2 : ℂ)) * z‖ ^ 2 = 1 := by
    intro z hz
    rw [norm_mul, mul_pow, hn, ← Complex.normSq_eq_norm_sq, Complex.normSq_apply]
    linarith [hz, sq z.re, sq z.im]
  rcases a with ⟨s, l, hh⟩
  constructor
  · rintro rfl rfl
    cases s <;> cases x <;> simp [GNode.mat, powB, ketB, Ops.H, Ops.Z, mat2_mul] <;> field_simp <;>
      linear_combination -hsq
  · intro hor
    apply hu
    cases hh
    · cases l <;> cases s <;> cases x <;> simp [GNode.mat, powB, ketB, Ops.S, Ops.Z, mat2_mul]
    · obtain rfl : l = true := by simpa using hor
      cases s <;> cases x <;>
        · simp only [GNode.mat, powB, ketB, Ops.H, Ops.S, Ops.Z, Matrix.smul_mul, mat2_mul, if_true, if_false, Matrix.smul_apply,
            smul_eq_mul, Matrix.mul_one, mat2_ff, mat2_ft, mat2_tf, mat2_tt, ← mul_add, star_one, star_zero, one_mul, zero_mul,
            add_zero, zero_add, reduceCtorEq, Bool.false_eq_true]
          refine nI _ ?_
          simp
          try norm_num

theorem proj_isolated_state {g : GraphState} (h : g.Wf) {u : ℕ} (hu : u ∈ g.nodes) (hiso : ∀ x, g.adj u x = false) (x : Bool) :
    projOut u (ketB x) g.state = ((star (ketB x false) * ((g.attr u).mat false false + (g.attr u).mat false true) +
        star (ketB x true) * ((g.attr u).mat true false + (g.attr u).mat true true)) * (1 / (Real.sqrt 2 : ℂ))) •
          (g.removeNode u).state := by
  rw [removeNode_state h]
  unfold state graphKet
  rw [proj_isolated _ h hu (prepAll_noBit _ _) hiso, prepAll_erase hu, entangleAll_smul, locOps_homog, smul_smul]

/-- **C34** `measure_x(node, choice)` projects the node on an eigenvector of X: the returned outcome has probability 1 or
1/2, the node is removed and the state of the other nodes is the projected one; a node with neighbours has the chosen
outcome. -/
theorem C34_measure_x (order : List ℕ → List ℕ) (ho : ∀ l, (order l).Perm l) (g : GraphState) (h : g.Wf) (u : ℕ)
    (hu : u ∈ g.nodes) (choice : ℕ) :
    (1 < choice → g.measureX order u choice = .error .valueError) ∧
    (choice ≤ 1 → ∃ res g', g.measureX order u choice = .ok (res, g') ∧ g'.Wf ∧ g'.nodes = g.nodes.erase u ∧
      (g.nbrs u ≠ [] → res = decide (choice = 1)) ∧
      ∃ c : ℂ, (‖c‖ ^ 2 = 1 ∨ ‖c‖ ^ 2 = 1 / 2) ∧
        projOut u (measVec (.pauli ⟨.X, .plus⟩) res) g.state = c • g'.state) := by
  refine ⟨fun hc => ?_, fun hc => ?_⟩
  · unfold measureX
    have : choice ≠ 0 ∧ choice ≠ 1 := by omega
    simp [this, bind, Except.bind, throw, throwThe, MonadExceptOf.throw]
  have hc' : ¬ (choice ≠ 0 ∧ choice ≠ 1) := by omega
  obtain ⟨g1, e1, w1, n1, p1⟩ := C34_h g h u hu
  have hX : (Measurement.pauli ⟨.Z, .plus⟩).clifford Clifford.H = .pauli ⟨.X, .plus⟩ := by rfl
  have key : ∀ res, PhaseEq (projOut u (measVec (.pauli ⟨.X, .plus⟩) res) g.state)
      (projOut u (measVec (.pauli ⟨.Z, .plus⟩) res) g1.state) := by
    intro res
    have := projOut_clifford (.pauli ⟨.Z, .plus⟩) Clifford.H res u g.state
    rw [hX, Clifford.matrix_H] at this
    exact this.symm.trans (p1.symm.projOut u _)
  have e1' := h_eq hu
  rw [e1] at e1'
  injection e1' with e1'
  unfold measureX
  simp only [hc', hu, not_true_eq_false, if_false, bind, Except.bind, pure, Except.pure]
  by_cases hn : g.nbrs u = []
  · rw [if_pos hn]
    refine ⟨_, _, rfl, removeNode_wf h u, rfl, fun h' => absurd hn h', ?_⟩
    set res : Bool := if (g.attr u).hollow || (g.attr u).loop then decide (choice = 1) else if (g.attr u).sign then true else false
      with hres
    have hiso := (nbrs_eq_nil h).1 hn
    have hadj : g1.adj = g.adj := by rw [e1']
    have hiso1 : ∀ x, g1.adj u x = false := by rw [hadj]; exact hiso
    have hue : ∀ x ∈ g.nodes.erase u, x ≠ u := fun x hm => (List.Nodup.mem_erase_iff h.nodup).1 hm |>.1
    obtain ⟨d, hd, hp⟩ := (key res).trans (projOut_measZ res u g1.state)
    have hst : (g1.removeNode u).state = (g.removeNode u).state := by
      rw [removeNode_state w1, removeNode_state h, n1, hadj]
      refine locOps_congr (fun n hn => ?_) _
      rw [e1']
      simp [hue n hn]
    obtain ⟨a1, a2⟩ := isolated_amp (g1.attr u) res
    have hval := proj_isolated_state w1 (by rw [n1]; exact hu) hiso1 res
    rw [hst] at hval
    rw [hp, hval, smul_smul]
    refine ⟨_, ?_, rfl⟩
    rw [norm_mul, hd, one_mul]
    have hh1 : (g1.attr u).hollow = !(g.attr u).hollow := by rw [e1']; simp
    have hl1 : (g1.attr u).loop = (g.attr u).loop := by rw [e1']; simp
    have hs1 : (g1.attr u).sign = (g.attr u).sign := by rw [e1']; simp
    by_cases hb : (g.attr u).hollow = true ∨ (g.attr u).loop = true
    · right
      exact a2 (by rw [hh1, hl1]; rcases hb with hb | hb <;> simp [hb])
    · left
      have b1 : (g.attr u).hollow = false := by simpa using fun h => hb (Or.inl h)
      have b2 : (g.attr u).loop = false := by simpa using fun h => hb (Or.inr h)
      have : res = (g1.attr u).sign := by
        rw [hres, hs1, b1, b2]; cases (g.attr u).sign <;> rfl
      rw [a1 (by rw [hh1, b1]; rfl) (by rw [hl1, b2]), if_pos this]
      simp
  · rw [if_neg hn]
    simp only [e1]
    obtain ⟨res, g', hm, w, hn', hres, c, hcn, hp⟩ := (C34_measure_z order ho g1 w1 u (by rw [n1]; exact hu) choice).2 hc
    have hn1 : g1.nbrs u ≠ [] := by rw [e1']; exact hn
    obtain ⟨d, hd, hp'⟩ := key res
    refine ⟨res, g', hm, w, by rw [hn', n1], fun _ => hres hn1, d * c, ?_, ?_⟩
    · rw [norm_mul, hd, one_mul]; exact hcn
    · rw [hp', hp, smul_smul]

/-- On a hollow node with a loop and without a sign, `s(node)` applies S, then X. -/
theorem s_wrong_X (g : GraphState) (h : g.Wf) (u : ℕ) (hu : u ∈ g.nodes) (hh : (g.attr u).hollow = true)
    (hl : (g.attr u).loop = true) (hs : (g.attr u).sign = false) :
    ∃ g', g.s u = .ok g' ∧ g'.Wf ∧ g'.nodes = g.nodes ∧ PhaseEq g'.state (op1 Clifford.X.matrix u (op1 Ops.S u g.state)) := by
  rw [s_eq h hu, if_pos hh]
  refine ⟨_, rfl, locComp_simple h u, rfl, ?_⟩
  have hc : PhaseEq (op1 Clifford.X.matrix u (op1 Ops.S u g.state)) (op1 (Clifford.X.mul Clifford.S).matrix u g.state) := by
    rw [op1_mul, ← Clifford.matrix_S]
    exact (Clifford.mul_matrix _ _).op1 u _
  refine state_of_cket (g := g) rfl (hc.trans ((op1_state_cket h hu _).trans (cket_lc _ h hu (prepAll_noBit _ _))))
    fun n hn => ?_
  unfold lcK
  by_cases hnu : n = u
  · subst hnu
    rw [update_self]
    rcases ha : g.attr n with ⟨s', l', hh'⟩
    rw [ha] at hh hl hs
    obtain rfl : hh' = true := hh
    obtain rfl : l' = true := hl
    obtain rfl : s' = false := hs
    simp only [if_true, ha]
    decide
  · rw [update_of_ne hnu]
    simp only [hnu, if_false, hl]
    cases hadj : g.adj u n <;> simp [vop_I, vop_adv]

/-- **C34** `measure_y(node, choice)` projects the node on an eigenvector of Y, although it uses `s`, which is wrong
on some nodes: what `s` gets wrong there does not matter for the measurement that follows. -/
theorem C34_measure_y (order : List ℕ → List ℕ) (ho : ∀ l, (order l).Perm l) (g : GraphState) (h : g.Wf) (u : ℕ)
    (hu : u ∈ g.nodes) (choice : ℕ) :
    (1 < choice → g.measureY order u choice = .error .valueError) ∧
    (choice ≤ 1 → ∃ res g', g.measureY order u choice = .ok (res, g') ∧ g'.Wf ∧ g'.nodes = g.nodes.erase u ∧
      (g.nbrs u ≠ [] → res = decide (choice = 1)) ∧
      ∃ c : ℂ, (‖c‖ ^ 2 = 1 ∨ ‖c‖ ^ 2 = 1 / 2) ∧
        projOut u (measVec (.pauli ⟨.Y, .plus⟩) res) g.state = c • g'.state) := by
  refine ⟨fun hc => ?_, fun hc => ?_⟩
  · unfold measureY
    have : choice ≠ 0 ∧ choice ≠ 1 := by omega
    simp [this, bind, Except.bind, throw, throwThe, MonadExceptOf.throw]
  have hc' : ¬ (choice ≠ 0 ∧ choice ≠ 1) := by omega
  have hs : ∃ g1, g.s u = .ok g1 ∧ g1.Wf ∧ g1.nodes = g.nodes ∧
      (PhaseEq g1.state (op1 Ops.S u g.state) ∨ PhaseEq g1.state (op1 Clifford.X.matrix u (op1 Ops.S u g.state))) := by
    by_cases hw : (g.attr u).hollow = true ∧ (g.attr u).loop = true ∧ (g.attr u).sign = false
    · obtain ⟨g1, a, b, c, d⟩ := s_wrong_X g h u hu hw.1 hw.2.1 hw.2.2
      exact ⟨g1, a, b, c, Or.inr d⟩
    · obtain ⟨g1, a, b, c, d⟩ := C34_s_partial g h u hu fun a b c => absurd ⟨a, b, c⟩ hw
      exact ⟨g1, a, b, c, Or.inl d⟩
  obtain ⟨g1, e1, w1, n1, p1⟩ := hs
  have hu1 : u ∈ g1.nodes := by rw [n1]; exact hu
  obtain ⟨g2, e2, w2, n2, p2⟩ := C34_z g1 w1 u hu1
  have hu2 : u ∈ g2.nodes := by rw [n2]; exact hu1
  obtain ⟨g3, e3, w3, n3, p3⟩ := C34_h g2 w2 u hu2
  have hu3 : u ∈ g3.nodes := by rw [n3]; exact hu2
  have hY : (((Measurement.pauli ⟨.Z, .plus⟩).clifford Clifford.H).clifford Clifford.Z).clifford Clifford.S =
      .pauli ⟨.Y, .plus⟩ := by rfl
  have key : ∀ res, PhaseEq (projOut u (measVec (.pauli ⟨.Y, .plus⟩) res) g.state)
      (projOut u (measVec (.pauli ⟨.Z, .plus⟩) res) g3.state) := by
    intro res
    have q1 := projOut_clifford (.pauli ⟨.Z, .plus⟩) Clifford.H res u g2.state
    have q2 := projOut_clifford ((Measurement.pauli ⟨.Z, .plus⟩).clifford Clifford.H) Clifford.Z res u g1.state
    have q3 := projOut_clifford (((Measurement.pauli ⟨.Z, .plus⟩).clifford Clifford.H).clifford Clifford.Z) Clifford.S res u g.state
    rw [Clifford.matrix_H] at q1
    rw [Clifford.matrix_Z] at q2
    rw [Clifford.matrix_S, hY] at q3
    have q12 := q2.symm.trans ((p2.symm.projOut u _).trans (q1.symm.trans (p3.symm.projOut u _)))
    rcases p1 with p1 | p1
    · exact q3.symm.trans ((p1.symm.projOut u _).trans q12)
    · have hX : (((Measurement.pauli ⟨.Z, .plus⟩).clifford Clifford.H).clifford Clifford.Z).clifford Clifford.X =
          ((Measurement.pauli ⟨.Z, .plus⟩).clifford Clifford.H).clifford Clifford.Z := by rfl
      have qx := projOut_clifford (((Measurement.pauli ⟨.Z, .plus⟩).clifford Clifford.H).clifford Clifford.Z) Clifford.X res u
        (op1 Ops.S u g.state)
      rw [hX] at qx
      exact q3.symm.trans (qx.symm.trans ((p1.symm.projOut u _).trans q12))
  obtain ⟨res, g', hm, w, hn', hres, c, hcn, hp⟩ := (C34_measure_z order ho g3 w3 u hu3 choice).2 hc
  obtain ⟨d, hd, hp'⟩ := key res
  unfold measureY
  simp only [hc', if_false, bind, Except.bind, pure, Except.pure, e1, e2, e3]
  refine ⟨res, g', hm, w, by rw [hn', n3, n2, n1], fun hn => hres ?_, d * c, ?_, ?_⟩
  · intro h0
    apply hn
    rw [nbrs_eq_nil w3] at h0
    rw [nbrs_eq_nil h]
    intro x
    have k3 := h_eq hu2
    rw [e3] at k3; injection k3 with k3
    have k2 := z_eq w1 hu1
    rw [e2] at k2; injection k2 with k2
    have k1 := s_eq h hu
    rw [e1] at k1
    have a1 : g1.adj u x = g.adj u x := by
      split at k1 <;> · injection k1 with k1; rw [k1]; try exact locComp_nbr g.adj h.irrefl u x
    have := h0 x
    rw [k3] at this
    change g2.adj u x = false at this
    rw [k2] at this
    change g1.adj u x = false at this
    rw [← a1]; exact this
  · rw [norm_mul, hd, one_mul]; exact hcn
  · rw [hp', hp, smul_smul]

/-! ### `apply_vops`, `extract_vops` and `to_statevector` -/

/-- The attributes of a node on which `s` is wrong as soon as the node has a neighbour. -/
def Bad (a : GNode) : Prop := a.hollow = true ∧ a.loop = true ∧ a.sign = false

instance (a : GNode) : Decidable (Bad a) := by unfold Bad; infer_instance

/-- The attributes of the node itself after one of the gates Z, H, S. -/
def nodeGate (a : GNode) (lc : Clifford) : GNode :=
  if lc = Clifford.Z then (if a.hollow && !a.loop then a else a.flip)
  else if lc = Clifford.H then { a with hollow := !a.hollow }
  else if a.hollow then ⟨a.sign, false, !a.loop⟩ else a.adv

/-- While the gates are applied one after the other, `s` is never called on a node with `Bad` attributes. -/
def GoodRun : GNode → List Clifford → Prop
  | _, [] => True
  | a, lc :: l => (lc = Clifford.S → ¬ Bad a) ∧ GoodRun (nodeGate a lc) l

instance decGoodRun : ∀ (a : GNode) (l : List Clifford), Decidable (GoodRun a l)
  | _, [] => isTrue trivial
  | a, lc :: l => @instDecidableAnd _ _ inferInstance (decGoodRun (nodeGate a lc) l)

theorem apply_gate {g : GraphState} (h : g.Wf) {u : ℕ} (hu : u ∈ g.nodes) {lc : Clifford}
    (hlc : lc = Clifford.H ∨ lc = Clifford.S ∨ lc = Clifford.Z) (hb : lc = Clifford.S → ¬ Bad (g.attr u)) :
    ∃ g', applyGate u g lc = .ok g' ∧ g'.Wf ∧ g'.nodes = g.nodes ∧ g'.attr u = nodeGate (g.attr u) lc ∧
      PhaseEq g'.state (op1 lc.matrix u g.state) := by
  have n1 : Clifford.H ≠ Clifford.Z := by decide
  have n2 : Clifford.S ≠ Clifford.Z := by decide
  have n3 : Clifford.S ≠ Clifford.H := by decide
  unfold applyGate nodeGate
  rcases hlc with rfl | rfl | rfl
  · simp only [n1, if_false, if_true]
    obtain ⟨g', e, w, n, p⟩ := C34_h g h u hu
    have e' := h_eq hu
    rw [e] at e'; injection e' with e'
    exact ⟨g', e, w, n, by rw [e']; simp, by rw [Clifford.matrix_H]; exact p⟩
  · simp only [n2, n3, if_false]
    obtain ⟨g', e, w, n, p⟩ := C34_s_partial g h u hu fun a b c => absurd ⟨a, b, c⟩ (hb rfl)
    have e' := s_eq h hu
    rw [e] at e'; injection e' with e'
    refine ⟨g', e, w, n, ?_, by rw [Clifford.matrix_S]; exact p⟩
    rw [e']
    split <;> simp
  · simp only [if_true]
    obtain ⟨g', e, w, n, p⟩ := C34_z g h u hu
    have e' := z_eq h hu
    rw [e] at e'; injection e' with e'
    exact ⟨g', e, w, n, by rw [e']; simp, by rw [Clifford.matrix_Z]; exact p⟩

theorem apply_gates {u : ℕ} : ∀ (l : List Clifford) {g : GraphState} (_ : g.Wf) (_ : u ∈ g.nodes)
    (_ : ∀ lc ∈ l, lc = Clifford.H ∨ lc = Clifford.S ∨ lc = Clifford.Z) (_ : GoodRun (g.attr u) l),
    ∃ g', l.foldlM (applyGate u) g = .ok g' ∧ g'.Wf ∧ g'.nodes = g.nodes ∧
      PhaseEq g'.state (l.foldl (fun ψ lc => op1 lc.matrix u ψ) g.state)
  | [], g, h, hu, _, _ => ⟨g, rfl, h, rfl, PhaseEq.refl _⟩
  | lc :: l, g, h, hu, hl, hb => by
    obtain ⟨g1, e1, w1, n1, a1, p1⟩ := apply_gate h hu (hl lc (by simp)) hb.1
    obtain ⟨g2, e2, w2, n2, p2⟩ := apply_gates l w1 (by rw [n1]; exact hu) (fun c hc => hl c (by simp [hc]))
      (by rw [a1]; exact hb.2)
    refine ⟨g2, by simp only [List.foldlM_cons, e1, bind, Except.bind]; exact e2, w2, by rw [n2, n1], p2.trans ?_⟩
    rw [List.foldl_cons]
    have : ∀ (l : List Clifford) (ψ φ : QState), PhaseEq ψ φ →
        PhaseEq (l.foldl (fun ψ lc => op1 lc.matrix u ψ) ψ) (l.foldl (fun ψ lc => op1 lc.matrix u ψ) φ) := by
      intro l
      induction l with
      | nil => exact fun _ _ h => h
      | cons c l ih => exact fun _ _ h => ih _ _ (h.op1 _ _)
    exact this l _ _ p1

theorem foldl_op1_rev (u : ℕ) (l : List Clifford) (ψ : QState) :
    l.reverse.foldl (fun ψ lc => op1 lc.matrix u ψ) ψ = op1 (matProd (l.map Clifford.matrix)) u ψ := by
  induction l with
  | nil => simp [matProd, op1_one]
  | cons c l ih => simp only [List.reverse_cons, List.foldl_append, ih, List.foldl_cons, List.foldl_nil, List.map_cons]; rw [op1_mul]; rfl

theorem hsz_gates {c : Clifford} (hc : c ≠ Clifford.I) :
    ∀ lc ∈ c.hsz.reverse, lc = Clifford.H ∨ lc = Clifford.S ∨ lc = Clifford.Z := by
  have : ∀ c : Fin 24, Clifford.ofFin c ≠ Clifford.I → ∀ lc ∈ (Clifford.ofFin c).hsz.reverse,
      lc = Clifford.H ∨ lc = Clifford.S ∨ lc = Clifford.Z := by decide +kernel
  exact this c hc

theorem apply_vop {g : GraphState} (h : g.Wf) {u : ℕ} (hu : u ∈ g.nodes) {c : Clifford} (hc : c ≠ Clifford.I)
    (hb : GoodRun (g.attr u) c.hsz.reverse) :
    ∃ g', c.hsz.reverse.foldlM (applyGate u) g = .ok g' ∧ g'.Wf ∧ g'.nodes = g.nodes ∧
      PhaseEq g'.state (op1 c.matrix u g.state) := by
  obtain ⟨g', e, w, n, p⟩ := apply_gates _ h hu (hsz_gates hc) hb
  rw [foldl_op1_rev] at p
  exact ⟨g', e, w, n, p.trans ((C02_hsz c).op1 u _)⟩

/-- **C34** (partial) `apply_vops(vops)` applies the Clifford gates of the mapping, as long as none of them is `Clifford.I` and
`s` is never called on a node with the attributes on which it is wrong. -/
theorem C34_apply_vops_partial (vops : List (ℕ × Clifford)) : ∀ (g : GraphState), g.Wf →
    (∀ p ∈ vops, p.1 ∈ g.nodes ∧ p.2 ≠ Clifford.I) →
    (∀ pre u c suf g1, vops = pre ++ (u, c) :: suf → g.applyVops pre = .ok g1 → GoodRun (g1.attr u) c.hsz.reverse) →
    ∃ g', g.applyVops vops = .ok g' ∧ g'.Wf ∧ g'.nodes = g.nodes ∧
      PhaseEq g'.state (vops.foldl (fun ψ p => op1 p.2.matrix p.1 ψ) g.state) := by
  induction vops using List.reverseRecOn with
  | nil => exact fun g h _ _ => ⟨g, rfl, h, rfl, PhaseEq.refl _⟩
  | append_singleton vops p ih =>
    intro g h hm hg
    obtain ⟨g1, e1, w1, n1, p1⟩ := ih g h (fun q hq => hm q (by simp [hq])) fun pre u c suf g1 he =>
      hg pre u c (suf ++ [p]) g1 (by rw [he]; simp)
    have hp := hm p (by simp)
    obtain ⟨g2, e2, w2, n2, p2⟩ := apply_vop w1 (u := p.1) (by rw [n1]; exact hp.1) hp.2 (hg vops p.1 p.2 [] g1 rfl e1)
    refine ⟨g2, ?_, w2, by rw [n2, n1], ?_⟩
    · unfold applyVops at e1 ⊢
      rw [List.foldlM_append, e1]
      simp only [bind, Except.bind, List.foldlM_cons, List.foldlM_nil, pure, Except.pure, e2]
    · rw [List.foldl_append]
      exact p2.trans (p1.op1 _ _)

/-- **C34** (negation) `GraphState(..., vops={n: Clifford.I})` raises `RuntimeError`, although the gate is the identity. -/
theorem C34_vops_identity_raises (g : GraphState) (n : ℕ) : g.applyVops [(n, Clifford.I)] = .error .runtimeError := rfl

/-- **C34** On a node without attributes, `apply_vops({n: c})` applies `c` whatever the Clifford gate, except for
`Clifford.I` (`C34_vops_identity_raises`) and `Clifford(15)` (`C34_vops_wrong`). -/
theorem C34_apply_vop_fresh_partial (g : GraphState) (h : g.Wf) (u : ℕ) (hu : u ∈ g.nodes)
    (ha : g.attr u = ⟨false, false, false⟩) (c : Clifford) (hc : c ≠ Clifford.I) (h15 : c ≠ Clifford.ofFin 15) :
    ∃ g', g.applyVops [(u, c)] = .ok g' ∧ g'.Wf ∧ g'.nodes = g.nodes ∧ PhaseEq g'.state (op1 c.matrix u g.state) := by
  have hb : GoodRun (g.attr u) c.hsz.reverse := by
    rw [ha]
    have : ∀ c : Fin 24, Clifford.ofFin c ≠ Clifford.I → Clifford.ofFin c ≠ Clifford.ofFin 15 →
        GoodRun ⟨false, false, false⟩ (Clifford.ofFin c).hsz.reverse := by decide +kernel
    exact this c hc h15
  obtain ⟨g', e, w, n, p⟩ := apply_vop h hu hc hb
  refine ⟨g', ?_, w, n, p⟩
  unfold applyVops
  simp only [List.foldlM_cons, List.foldlM_nil, bind, Except.bind, e]
  rfl

/-- **C34** (negation) On a node without attributes that has a neighbour, `apply_vops({n: Clifford(15)})` succeeds but gives a
wrong state. -/
theorem C34_vops_wrong (g : GraphState) (h : g.Wf) (u x : ℕ) (hx : g.adj u x = true)
    (ha : g.attr u = ⟨false, false, false⟩) (g' : GraphState) (hok : g.applyVops [(u, Clifford.ofFin 15)] = .ok g') :
    ¬ PhaseEq g'.state (op1 (Clifford.ofFin 15).matrix u g.state) := by
  have hu := h.mem u x hx
  have hz : (Clifford.ofFin 15).hsz.reverse = [Clifford.S, Clifford.H] ++ [Clifford.S] := by decide
  obtain ⟨g1, e1, w1, n1, p1⟩ := apply_gates [Clifford.S, Clifford.H] h hu (by decide) (by rw [ha]; decide)
  have n2 : Clifford.S ≠ Clifford.Z := by decide
  have n3 : Clifford.S ≠ Clifford.H := by decide
  -- the graph after the first two gates
  have hg1 : g1.attr u = ⟨false, true, true⟩ ∧ g1.adj = g.adj := by
    have n4 : Clifford.H ≠ Clifford.Z := by decide
    simp only [List.foldlM_cons, List.foldlM_nil, applyGate, n2, n3, n4, if_true, if_false, s_eq h hu, bind, Except.bind,
      pure, Except.pure, ha, Bool.false_eq_true] at e1
    rw [h_eq (by exact hu)] at e1
    injection e1 with e1
    rw [← e1]
    simp [ha, GNode.adv]
  have e2 : g1.s u = .ok g' := by
    unfold applyVops at hok
    simp only [List.foldlM_cons, List.foldlM_nil, bind, Except.bind] at hok
    rw [hz, List.foldlM_append, e1] at hok
    simp only [List.foldlM_cons, List.foldlM_nil, bind, Except.bind, applyGate, n2, n3, if_false] at hok
    cases hs : g1.s u with
    | error e => rw [hs] at hok; cases hok
    | ok g2 => rw [hs] at hok; exact hok
  intro hp
  refine C34_s_wrong g1 w1 u x (by rw [hg1.1]) (by rw [hg1.1]) (by rw [hg1.1]) (by rw [hg1.2]; exact hx) g' e2
    (hp.trans ?_)
  have q := (C02_hsz (Clifford.ofFin 15)).symm.op1 u g.state
  rw [← foldl_op1_rev, hz, List.foldl_append] at q
  rw [← Clifford.matrix_S]
  exact q.trans (p1.symm.op1 _ _)

/-- **C34** `extract_vops()` returns, for each node, the Clifford gate that its attributes stand for: applying these gates
to the graph state of the bare graph gives the represented state. -/
theorem C34_extract_vops (g : GraphState) (h : g.Wf) :
    g.extractVops.map Prod.fst = g.nodes ∧
      PhaseEq g.state (g.extractVops.foldl (fun ψ p => op1 p.2.matrix p.1 ψ) (graphKet g.adj g.nodes)) := by
  refine ⟨by unfold extractVops; simp [Function.comp_def], (state_cket g).trans (PhaseEq.of_eq ?_)⟩
  unfold extractVops cket
  rw [List.foldl_map, locOps_perm _ (List.reverse_perm g.nodes).symm h.nodup]
  have : ∀ (l : List ℕ) (ψ : QState), locOps (fun n => (vopOf (g.attr n)).matrix) l.reverse ψ =
      l.foldl (fun ψ n => op1 (vopOf (g.attr n)).matrix n ψ) ψ := by
    intro l ψ
    rw [← List.foldr_reverse]
    induction l.reverse with
    | nil => rfl
    | cons a l ih => rw [List.foldr_cons, ← ih]; rfl
  rw [this]
  rfl

theorem locOps_snoc (F : ℕ → Mat2) (n : ℕ) (l : List ℕ) (hn : n ∉ l) (ψ : QState) :
    locOps F (l ++ [n]) ψ = op1 (F n) n (locOps F l ψ) := by
  rw [locOps_op1 F (F n) hn]
  induction l with
  | nil => rfl
  | cons a l ih =>
    show op1 (F a) a (locOps F (l ++ [n]) ψ) = op1 (F a) a _
    rw [ih fun h => hn (by simp [h])]

theorem evolveIf_state {g : GraphState} (h : g.Wf) {order : ℕ → Option (List (ℕ × ℕ))}
    (ho : ∀ i < g.nodes.length, OkOrder (order i) g.nodes.length i) (op : Mat2) (attr : GNode → Bool) (sv : Statevector)
    (hn : sv.nqubit = g.nodes.length) :
    ∃ sv', g.evolveIf order op attr sv = .ok sv' ∧ sv'.nqubit = g.nodes.length ∧
      absState g.nodes sv'.psi = locOps (fun n => powB op (attr (g.attr n))) g.nodes (absState g.nodes sv.psi) := by
  have key : ∀ k, k ≤ g.nodes.length → ∃ sv', (List.range k).foldlM (fun sv i =>
      match g.nodes[i]? with
      | none => throw .indexError
      | some n => if attr (g.attr n) then sv.evolveSingle (order i) op i else pure sv) sv = (.ok sv' : Except PyErr Statevector) ∧
      sv'.nqubit = g.nodes.length ∧
      absState g.nodes sv'.psi = locOps (fun n => powB op (attr (g.attr n))) (g.nodes.take k) (absState g.nodes sv.psi) := by
    intro k
    induction k with
    | zero => exact fun _ => ⟨sv, rfl, hn, rfl⟩
    | succ k ih =>
      intro hk
      obtain ⟨sv1, e1, n1, a1⟩ := ih (by omega)
      have hget : g.nodes[k]? = some g.nodes[k] := List.getElem?_eq_getElem (by omega)
      have htake : g.nodes.take (k + 1) = g.nodes.take k ++ [g.nodes[k]] := by
        rw [List.take_add_one, hget]; rfl
      have hnot : g.nodes[k] ∉ g.nodes.take k := by
        have := h.nodup.sublist (List.take_sublist (k + 1) g.nodes)
        rw [htake, List.nodup_append] at this
        exact fun hm => this.2.2 _ hm _ (by simp) rfl
      rw [List.range_succ, List.foldlM_append, e1, htake, locOps_snoc _ _ _ hnot, ← a1]
      simp only [bind, Except.bind, List.foldlM_cons, List.foldlM_nil, hget]
      cases hat : attr (g.attr g.nodes[k]) with
      | false => exact ⟨sv1, rfl, n1, by rw [powB_false, op1_one]⟩
      | true =>
        obtain ⟨sv2, e2, n2, -, a2, -⟩ := C41_evolve_single (order k) sv1 op g.nodes h.nodup n1.symm k _ hget
          (by rw [n1]; exact ho k (by omega))
        exact ⟨sv2, by simp only [if_true, e2]; rfl, by rw [n2, n1], by rw [a2, powB_true]⟩
  obtain ⟨sv', e, n, a⟩ := key g.nodes.length le_rfl
  rw [List.take_length] at a
  exact ⟨sv', e, n, a⟩

theorem mem_edgesOf {adj : ℕ → ℕ → Bool} {l : List ℕ} {e : ℕ × ℕ} (h : e ∈ edgesOf adj l) : e.1 ∈ l ∧ e.2 ∈ l := by
  induction l with
  | nil => cases h
  | cons a l ih =>
    simp only [edgesOf, List.mem_append, List.mem_map, List.mem_filter] at h
    rcases h with ⟨v, ⟨hv, -⟩, rfl⟩ | h
    · exact ⟨by simp, by simp [hv]⟩
    · exact ⟨by simp [(ih h).1], by simp [(ih h).2]⟩

theorem plus_vec : PlanarState.plus.vec = plusVec := by
  funext b
  cases b <;> simp [PlanarState.plus, PlanarState.vec, planarState, plusVec]

theorem prodState_plus (l : List ℕ) : prodState l (List.replicate l.length PlanarState.plus) = prepAll l := by
  induction l with
  | nil => rfl
  | cons a l ih =>
    show prep a PlanarState.plus.vec (prodState l (List.replicate l.length PlanarState.plus)) = _
    rw [ih, plus_vec]; rfl

/-- **C34** `to_statevector()` succeeds and returns the amplitudes of the represented state, exactly (not only up to a phase),
the first node being the most significant bit, whatever the order in which the parallel loops run. -/
theorem C34_to_statevector (entOrder : List ℕ) (order : ℕ → Option (List (ℕ × ℕ))) (g : GraphState) (h : g.Wf)
    (he : entOrder.Perm (List.range (2 ^ g.nodes.length)))
    (ho : ∀ i < g.nodes.length, OkOrder (order i) g.nodes.length i) :
    ∃ sv, g.toStatevector entOrder order = .ok sv ∧ sv.nqubit = g.nodes.length ∧ absState g.nodes sv.psi = g.state := by
  obtain ⟨sv0, e0, n0, a0, -⟩ := init_ok g.nodes (.state PlanarState.plus) trivial
  change absState g.nodes sv0.psi = prodState g.nodes (List.replicate g.nodes.length PlanarState.plus) at a0
  rw [prodState_plus] at a0
  have key : ∀ (l : List (ℕ × ℕ)), (∀ e ∈ l, e.1 ∈ g.nodes ∧ e.2 ∈ g.nodes) → ∀ sv : Statevector, sv.nqubit = g.nodes.length →
      ∃ sv', l.foldlM (fun sv e => sv.entangle entOrder (g.nodes.idxOf e.1) (g.nodes.idxOf e.2)) sv =
        (.ok sv' : Except PyErr Statevector) ∧ sv'.nqubit = g.nodes.length ∧
        absState g.nodes sv'.psi = l.foldl (fun ψ e => cz e.1 e.2 ψ) (absState g.nodes sv.psi) := by
    intro l
    induction l with
    | nil => exact fun _ sv hn => ⟨sv, rfl, hn, rfl⟩
    | cons e l ih =>
      intro hm sv hn
      obtain ⟨h1, h2⟩ := hm e (by simp)
      obtain ⟨sv1, e1, n1, -, a1, -⟩ := C41_entangle entOrder sv g.nodes hn.symm _ _ e.1 e.2 (List.getElem?_idxOf h1)
        (List.getElem?_idxOf h2) (by rw [hn]; exact he)
      obtain ⟨sv2, e2, n2, a2⟩ := ih (fun e' h' => hm e' (by simp [h'])) sv1 (by rw [n1, hn])
      exact ⟨sv2, by simp only [List.foldlM_cons, e1, bind, Except.bind]; exact e2, n2, by rw [a2, a1, List.foldl_cons]⟩
  obtain ⟨sv1, e1, n1, a1⟩ := key (edgesOf g.adj g.nodes) (fun e => mem_edgesOf) sv0 n0
  obtain ⟨sv2, e2, n2, a2⟩ := evolveIf_state h ho Ops.Z GNode.sign sv1 n1
  obtain ⟨sv3, e3, n3, a3⟩ := evolveIf_state h ho Ops.S GNode.loop sv2 n2
  obtain ⟨sv4, e4, n4, a4⟩ := evolveIf_state h ho Ops.H GNode.hollow sv3 n3
  refine ⟨sv4, ?_, n4, ?_⟩
  · unfold toStatevector
    simp only [bind, Except.bind, e0, e1, e2, e3, e4]
  · rw [a4, a3, a2, a1, a0, locOps_mul _ _ h.nodup, locOps_mul _ _ h.nodup]
    rfl

/-- **C34** (remark) `measure_z` on an isolated node in the state `|+⟩` ignores the choice: the outcome is 0 even if 1 is
asked for, although both have probability 1/2. -/
theorem C34_choice_ignored (order : List ℕ → List ℕ) (g : GraphState) (u : ℕ) (hu : u ∈ g.nodes)
    (ha : g.attr u = ⟨false, false, false⟩) (hn : g.nbrs u = []) (choice : ℕ) (hc : choice ≤ 1) :
    ∃ g', g.measureZ order u choice = .ok (false, g') := by
  have hc' : ¬ (choice ≠ 0 ∧ choice ≠ 1) := by omega
  unfold measureZ equivalentFillNode flipSignNbrs
  simp only [hc', hu, ha, hn, not_true_eq_false, if_false, if_true, bind, Except.bind, pure, Except.pure, Bool.false_eq_true,
    List.foldl_nil, ite_self]
  exact ⟨_, rfl⟩

/-! ### The hypotheses are met -/

/-- A new graph state is simple and has no attributes. -/
theorem C34_new (nodes : List ℕ) (edges : List (ℕ × ℕ)) (h : ∀ e ∈ edges, e.1 ∈ nodes ∧ e.2 ∈ nodes ∧ e.1 ≠ e.2) :
    (new nodes edges).Wf ∧ (new nodes edges).state = graphKet (new nodes edges).adj (new nodes edges).nodes := by
  refine ⟨⟨List.nodup_reverse.2 (List.nodup_dedup _), fun x y => ?_, fun x => ?_, fun x y hxy => ?_⟩, ?_⟩
  · unfold new; simp only [decide_eq_decide]; exact or_comm
  · unfold new
    simp only [or_self, decide_eq_false_iff_not]
    exact fun hm => (h _ hm).2.2 rfl
  · unfold new at hxy ⊢
    simp only [decide_eq_true_eq] at hxy
    rw [List.mem_reverse, List.mem_dedup, List.mem_reverse]
    rcases hxy with hxy | hxy
    · exact (h _ hxy).1
    · exact (h _ hxy).2.1
  · unfold state
    have : ∀ n, ((new nodes edges).attr n).mat = 1 := by intro n; simp [new, GNode.mat, powB]
    simp only [this, locOps_one]

/-- The path 0 – 1 – 2, node 1 being hollow with a loop and without a sign: the node on which `s` is wrong. -/
def pathBad : GraphState := { new [0, 1, 2] [(0, 1), (1, 2)] with attr := fun n => ⟨false, n == 1, n == 1⟩ }

theorem pathBad_wf : pathBad.Wf := (C34_new [0, 1, 2] [(0, 1), (1, 2)] (by decide)).1

example : ∃ g', pathBad.s 1 = .ok g' ∧ ¬ PhaseEq g'.state (op1 Ops.S 1 pathBad.state) := by
  obtain ⟨g', e, -, -, -⟩ := s_wrong_X pathBad pathBad_wf 1 (by decide) rfl rfl rfl
  exact ⟨g', e, C34_s_wrong pathBad pathBad_wf 1 0 rfl rfl rfl (by decide) g' e⟩

example : ∃ res g', pathBad.measureY id 1 1 = .ok (res, g') ∧ g'.nodes = [0, 2] ∧ res = true := by
  obtain ⟨res, g', e, -, hn, hr, -⟩ := (C34_measure_y id (fun _ => List.Perm.refl _) pathBad pathBad_wf 1 (by decide) 1).2
    le_rfl
  exact ⟨res, g', e, hn, hr (by decide)⟩

example : ∃ res g', pathBad.measureX id 1 0 = .ok (res, g') ∧ g'.nodes = [0, 2] ∧ res = false := by
  obtain ⟨res, g', e, -, hn, hr, -⟩ := (C34_measure_x id (fun _ => List.Perm.refl _) pathBad pathBad_wf 1 (by decide) 0).2
    (by omega)
  exact ⟨res, g', e, hn, hr (by decide)⟩

example : ∃ res g', pathBad.measureZ id 1 0 = .ok (res, g') ∧ g'.adj 0 2 = true ∧ g'.attr 0 = ⟨true, true, false⟩ := ⟨false, _, rfl, rfl, rfl⟩

example : ∃ g', (new [0, 1] [(0, 1)]).applyVops [(0, Clifford.ofFin 15)] = .ok g' ∧
    ¬ PhaseEq g'.state (op1 (Clifford.ofFin 15).matrix 0 (new [0, 1] [(0, 1)]).state) :=
  ⟨_, rfl, C34_vops_wrong _ (C34_new [0, 1] [(0, 1)] (by decide)).1 0 1 (by decide) rfl _ rfl⟩

example : ∃ g', (new [0, 1] [(0, 1)]).applyVops [(0, Clifford.ofFin 14), (1, Clifford.SDG)] = .ok g' ∧
    PhaseEq g'.state (op1 Clifford.SDG.matrix 1 (op1 (Clifford.ofFin 14).matrix 0 (new [0, 1] [(0, 1)]).state)) := by
  obtain ⟨g', e, -, -, p⟩ := C34_apply_vops_partial [(0, Clifford.ofFin 14), (1, Clifford.SDG)] _
    (C34_new [0, 1] [(0, 1)] (by decide)).1 (by decide) (by
      intro pre u c suf g1 he hok
      rcases pre with _ | ⟨p, _ | ⟨q, pre⟩⟩
      · simp only [List.nil_append, List.cons.injEq, Prod.mk.injEq] at he
        obtain ⟨⟨rfl, rfl⟩, -⟩ := he
        injection hok with hok
        subst hok
        decide
      · simp only [List.cons_append, List.nil_append, List.cons.injEq, Prod.mk.injEq] at he
        obtain ⟨rfl, ⟨rfl, rfl⟩, -⟩ := he
        injection hok with hok
        subst hok
        decide
      · simp at he)
  exact ⟨g', e, p⟩

example : ∃ sv, pathBad.toStatevector (List.range 8) (fun _ => none) = .ok sv ∧ sv.nqubit = 3 ∧
    absState [0, 1, 2] sv.psi = pathBad.state :=
  C34_to_statevector (List.range 8) (fun _ => none) pathBad pathBad_wf (List.Perm.refl _)
    fun _ _ o ho => by cases ho

example : (new [0, 1] []).measureZ id 0 1 = .ok (false, (new [0, 1] []).removeNode 0) := rfl

end GraphState

end Graphix
