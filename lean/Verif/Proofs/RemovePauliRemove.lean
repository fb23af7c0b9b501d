import Verif.Proofs.RemovePauliStep

/-! Removing nodes. -/

namespace Graphix

open Function

/-- The cut is the cut of the measurements of `sp`, whose Pauli measurements have been pushed. -/
structure CutOk (sp : StdPattern) (cut : PauliCut) : Prop where
  wf : sp.WF
  list : sp.mList = cut.pauli ++ cut.nonPauli
  pauli : ∀ m ∈ cut.pauli, (∃ pm, m.measurement = .pauli pm) ∧ m.sDomain = ∅ ∧ m.tDomain = ∅

theorem CutOk.pauliOf {sp : StdPattern} {cut : PauliCut} (h : CutOk sp cut) {w : ℕ} {m : PauliMeasurement}
    (hw : cut.pauliOf w = some m) : (⟨w, .pauli m, ∅, ∅⟩ : MCmd) ∈ cut.pauli := by
  unfold PauliCut.pauliOf at hw
  split at hw
  · rename_i x y s t hf
    cases hw
    have h1 := List.mem_of_find?_eq_some hf
    have h2 := List.find?_some hf
    simp only [decide_eq_true_eq] at h2
    obtain ⟨-, h3, h4⟩ := h.pauli _ h1
    simp only at h3 h4
    subst h2 h3 h4
    exact h1
  · cases hw

theorem CutOk.meas {sp : StdPattern} {cut : PauliCut} (h : CutOk sp cut) {w : ℕ} {m : PauliMeasurement}
    (hw : cut.pauliOf w = some m) : w ∈ sp.measNodes := by
  unfold StdPattern.measNodes
  rw [h.list]
  exact List.mem_map.2 ⟨_, List.mem_append_left _ (h.pauliOf hw), rfl⟩

theorem CutOk.baseOp {sp : StdPattern} {cut : PauliCut} (h : CutOk sp cut) {w : ℕ} {m : PauliMeasurement}
    (hw : cut.pauliOf w = some m) (r : ℕ → Bool) : sp.baseOp r w = bra (measVec (.pauli m) (r w)) := by
  unfold StdPattern.baseOp
  rw [if_pos (h.meas hw)]
  have hm : (⟨w, .pauli m, ∅, ∅⟩ : MCmd) ∈ sp.mList := by rw [h.list]; exact List.mem_append_left _ (h.pauliOf hw)
  rw [h.wf.nodeOp_meas r hm]
  simp [parity_empty, powB]

theorem Measurement.clifford_pauli (m : PauliMeasurement) (c : Clifford) :
    (Measurement.pauli m).clifford c = .pauli (m.clifford c) := by
  rfl

/-- The operator at a node with a Pauli measurement. -/
theorem RInv.specOp_pauli {sp : StdPattern} {cut : PauliCut} {p : Rpm} {π : Equiv.Perm ℕ} (hc : CutOk sp cut) (h : RInv sp cut p π)
    {u : ℕ} (hu : u ∈ p.nodes) {m : PauliMeasurement} (hm : (p.specs u).pauli = some m) (r : ℕ → Bool) :
    MatPhaseEq (sp.specOp r (p.specs u)) (bra (measVec (.pauli m) (r (π u)))) := by
  rw [h.pauliSpec u hu] at hm
  obtain ⟨m0, h0, rfl⟩ := Option.map_eq_some_iff.1 hm
  have hd := h.domM u hu (hc.meas h0)
  have h1 : (p.specs u).domains.s = ∅ := by
    apply Finset.subset_empty.1; rw [← hd]; exact Finset.subset_union_left
  have h2 : (p.specs u).domains.t = ∅ := by
    apply Finset.subset_empty.1; rw [← hd]; exact Finset.subset_union_right
  unfold StdPattern.specOp
  rw [h.src u hu, hc.baseOp h0, h1, h2]
  simp only [parity_empty, powB, Bool.false_eq_true, if_false, Matrix.mul_one]
  have := bra_clifford (.pauli m0) (p.specs u).clifford (r (π u))
  rwa [Measurement.clifford_pauli] at this

theorem RInv.not_output {sp : StdPattern} {cut : PauliCut} {p : Rpm} {π : Equiv.Perm ℕ} (hc : CutOk sp cut) (h : RInv sp cut p π)
    (ho : OutsOk sp p π) {u : ℕ} (hu : u ∈ p.nodes) {m : PauliMeasurement} (hm : (p.specs u).pauli = some m) : u ∉ p.outputs := by
  rw [h.pauliSpec u hu] at hm
  obtain ⟨m0, h0, -⟩ := Option.map_eq_some_iff.1 hm
  rw [ho.1]
  intro hx
  exact ((hc.wf.out _).1 hx).2 (hc.meas h0)

/-- `_remove_node`. -/
theorem removeNode_ok {sp : StdPattern} {cut : PauliCut} {p : Rpm} {π : Equiv.Perm ℕ} (h : RInv sp cut p π)
    (ho : OutsOk sp p π) {u : ℕ} (hu : u ∈ p.nodes) (hi : u ∉ p.inputs) (hno : u ∉ p.outputs) :
    ∃ p', p.removeNode u = .ok p' ∧ RInv sp cut p' π ∧ OutsOk sp p' π ∧ p'.nodes = p.nodes.erase u ∧
      p'.adj = (fun x y => p.adj x y && decide (x ≠ u) && decide (y ≠ u)) ∧ p'.specs = p.specs ∧ p'.inputs = p.inputs ∧
      p'.outputs = p.outputs ∧ p'.nodeMap = (fun w => if w = π u then none else p.nodeMap w) ∧
      ∀ a, p'.pauli a = (p.pauli a).erase (π u) := by
  have hsrc := h.src u hu
  have hmap : p.nodeMap (π u) = some u := by rw [h.map]; simp [hu]
  have hme : ∀ n, n ∈ p.nodes.erase u ↔ n ≠ u ∧ n ∈ p.nodes := fun n => h.simple.nodup.mem_erase_iff
  -- common part
  have fin : ∀ q : Axis → Finset ℕ, (∀ a, q a = (p.pauli a).erase (π u)) → ∀ p' : Rpm, p' = { p with
      nodeMap := fun w => if w = π u then none else p.nodeMap w
      nodes := p.nodes.erase u
      adj := fun x y => p.adj x y && decide (x ≠ u) && decide (y ≠ u)
      pauli := q } → RInv sp cut p' π ∧ OutsOk sp p' π ∧ p'.nodes = p.nodes.erase u ∧
      p'.adj = (fun x y => p.adj x y && decide (x ≠ u) && decide (y ≠ u)) ∧ p'.specs = p.specs ∧ p'.inputs = p.inputs ∧
      p'.outputs = p.outputs ∧ p'.nodeMap = (fun w => if w = π u then none else p.nodeMap w) ∧
      ∀ a, p'.pauli a = (p.pauli a).erase (π u) := by
    rintro q hq p' rfl
    refine ⟨⟨⟨h.simple.nodup.erase u, fun x y => ?_, fun x => ?_, fun x y hxy => ?_⟩, fun n hn => h.src n ((hme n).1 hn).2,
      fun w => ?_, h.fix, h.inputs, fun i hii => (hme i).2 ⟨by rintro rfl; exact hi hii, h.inpMem i hii⟩,
      fun n hn => h.mem n ((hme n).1 hn).2, fun n hn => h.pauliSpec n ((hme n).1 hn).2, fun a w => ?_,
      fun n hn => h.dom n ((hme n).1 hn).2, fun n hn => h.domM n ((hme n).1 hn).2⟩, ⟨ho.1, fun n hn => ?_⟩, rfl, rfl, rfl, rfl, rfl, rfl, hq⟩
    · simp only [h.simple.symm x y]
      cases p.adj y x <;> cases decide (x ≠ u) <;> cases decide (y ≠ u) <;> rfl
    · simp [h.simple.irrefl]
    · simp only [Bool.and_eq_true, decide_eq_true_eq] at hxy
      exact (hme x).2 ⟨hxy.1.2, h.simple.mem x y hxy.1.1⟩
    · simp only [hme]
      by_cases hw : w = π u
      · subst hw; simp
      · rw [if_neg hw, h.map]
        have : π.symm w ≠ u := by rintro e; apply hw; rw [← e]; simp
        simp [this]
    · change w ∈ q a ↔ _
      rw [hq, Finset.mem_erase, h.pauliSet]
      constructor
      · rintro ⟨hne, n, h1, rfl, h3⟩
        exact ⟨n, (hme n).2 ⟨fun e => hne (by rw [e]), h1⟩, rfl, h3⟩
      · rintro ⟨n, h1, rfl, h3⟩
        exact ⟨fun e => ((hme n).1 h1).1 (π.injective e), n, ((hme n).1 h1).2, rfl, h3⟩
    · exact (hme n).2 ⟨by rintro rfl; exact hno hn, ho.2 n hn⟩
  unfold Rpm.removeNode
  cases hm : (p.specs u).pauli with
  | none =>
    simp only [bind, Except.bind, pure, Except.pure, hm, hsrc, hmap, Option.isNone_some, Bool.false_eq_true, if_false, hu, not_true_eq_false]
    refine ⟨_, rfl, fin p.pauli (fun a => ?_) _ rfl⟩
    symm
    apply Finset.erase_eq_of_notMem
    rw [h.pauliSet]
    rintro ⟨n, h1, h2, h3, m, h4, h5⟩
    have : n = u := π.injective h2
    subst this
    rw [hm] at h4; cases h4
  | some m =>
    have hin : π u ∈ p.pauli m.axis := by rw [h.pauliSet]; exact ⟨u, hu, rfl, hi, m, hm, rfl⟩
    simp only [bind, Except.bind, pure, Except.pure, hm, hsrc, setRemove, hin, if_true, Rpm.setPauli, hmap, Option.isNone_some,
      Bool.false_eq_true, if_false, hu, not_true_eq_false]
    refine ⟨_, rfl, fin _ (fun a => ?_) _ rfl⟩
    split_ifs with e
    · rw [e]
    · symm
      apply Finset.erase_eq_of_notMem
      rw [h.pauliSet]
      rintro ⟨n, h1, h2, h3, m', h4, h5⟩
      have : n = u := π.injective h2
      subst this
      rw [hm] at h4; cases h4
      exact e h5.symm

/-- The bra of a Z measurement. -/
theorem bra_Z (s : Sign) : MatPhaseEq (bra (measVec (.pauli ⟨.Z, s⟩) false)) (bra (ketB (decide (s = .minus)))) := by
  apply bra_phase_of_outer (measVec_unit _ _)
  · cases s <;> simp [UnitVec, ketB]
  · rw [outer_measVec, measureOperator_eq]
    cases s <;> funext i j <;> cases i <;> cases j <;>
      simp [outer, ketB, observable, Sign.toComplex, Sign.toInt, Ops.fromAxis, Ops.Z, mat2] <;> norm_num

theorem sim_mk {sp : StdPattern} {p p' : Rpm} {π : Equiv.Perm ℕ} (hm : ∀ w, p.nodeMap w = none → p'.nodeMap w = none)
    (h : ∀ r : ℕ → Bool, (∀ w, p'.nodeMap w = none → r w = false) →
      ∃ c : ℂ, ‖c‖ = 1 ∧ ∀ ψ, sp.InOk ψ → p.val sp r ψ = c • p'.val sp r ψ) : Sim sp p π p' π := by
  refine ⟨hm, fun r hr => ?_⟩
  obtain ⟨c, hc, e⟩ := h r hr
  exact ⟨c, hc, fun ψ hψ => by rw [e ψ hψ, ren_smul]⟩

theorem entangle_erase {adj : ℕ → ℕ → Bool} {l : List ℕ} {u : ℕ} (hl : l.Nodup) (ψ : QState) :
    entangleAll (fun x y => adj x y && decide (x ≠ u) && decide (y ≠ u)) (l.erase u) ψ = entangleAll adj (l.erase u) ψ := by
  apply entangleAll_congr
  intro x hx y hy
  have h1 := (hl.mem_erase_iff.1 hx).1
  have h2 := (hl.mem_erase_iff.1 hy).1
  simp [h1, h2]

theorem removeZ_ok {sp : StdPattern} {cut : PauliCut} {p : Rpm} {π : Equiv.Perm ℕ} (hc : CutOk sp cut) (h : RInv sp cut p π)
    (ho : OutsOk sp p π) {u : ℕ} (hu : u ∈ p.nodes) (hi : u ∉ p.inputs) {s : Sign} (hm : (p.specs u).pauli = some ⟨.Z, s⟩) :
    ∃ p', p.removeZ u s = .ok p' ∧ RInv sp cut p' π ∧ OutsOk sp p' π ∧ Sim sp p π p' π ∧ p'.nodes = p.nodes.erase u ∧
      ∀ a, p'.pauli a ⊆ p.pauli a := by
  have hno := h.not_output hc ho hu hm
  have hnb : ∀ n, n ∈ p.nbrs u ↔ p.adj u n = true := by
    intro n
    unfold Rpm.nbrs; rw [List.mem_filter]
    exact ⟨fun h => h.2, fun h' => ⟨h.simple.mem n u (by rw [h.simple.symm]; exact h'), h'⟩⟩
  -- the byproducts on the neighbours
  have step1 : ∃ p1, (if s = .minus then p.applyCliffords (p.nbrs u) Clifford.Z else pure p) = .ok p1 ∧ RInv sp cut p1 π ∧
      Applied sp p p1 (fun n => if (decide (s = .minus) && p.adj u n) = true then Clifford.Z else .I) := by
    cases s with
    | plus => exact ⟨p, rfl, h, (Applied.refl sp p).congr fun n => by simp⟩
    | minus =>
      obtain ⟨p1, e1, h1, a1⟩ := applyCliffords_ok Clifford.Z (p.nbrs u) (h.simple.nodup.filter _) h
        (fun n hn => (List.mem_filter.1 hn).1)
      exact ⟨p1, e1, h1, a1.congr fun n => by simp only [hnb]; simp⟩
  obtain ⟨p1, e1, h1, a1⟩ := step1
  have ho1 : OutsOk sp p1 π := ⟨fun n => by rw [a1.outputs]; exact ho.1 n, fun n hn => by
    rw [a1.nodes]; rw [a1.outputs] at hn; exact ho.2 n hn⟩
  obtain ⟨p2, e2, h2, o2, n2, ad2, sp2, in2, out2, nm2, -⟩ := removeNode_ok h1 ho1 (u := u) (by rw [a1.nodes]; exact hu)
    (by rw [a1.inputs]; exact hi) (by rw [a1.outputs]; exact hno)
  refine ⟨p2, ?ex, h2, o2, ?sim, by rw [n2, a1.nodes], ?pa⟩
  case ex =>
    unfold Rpm.removeZ
    cases s with
    | plus => cases e1; exact e2
    | minus => simp only [if_true] at e1 ⊢; rw [e1]; exact e2
  case pa =>
    intro a w hw
    rw [h2.pauliSet] at hw
    obtain ⟨n, h3, h4, h5, m, h6, h7⟩ := hw
    rw [n2, a1.nodes] at h3
    rw [sp2, a1.pauli] at h6
    obtain ⟨m0, h8, h9⟩ := Option.map_eq_some_iff.1 h6
    rw [h.pauliSet]
    refine ⟨n, List.mem_of_mem_erase h3, h4, by rw [in2, a1.inputs] at h5; exact h5, m0, h8, ?_⟩
    rw [← h7, ← h9]
    obtain ⟨ax, sg⟩ := m0
    split_ifs <;> cases ax <;> cases sg <;> decide
  apply sim_mk
  · intro w hw
    rw [nm2, a1.nodeMap]
    simp only [hw, ite_self]
  intro r hr
  have hr0 : r (π u) = false := hr _ (by rw [nm2]; simp)
  obtain ⟨c, hc1, e⟩ := h.specOp_pauli hc hu hm r |>.trans (by rw [hr0]; exact bra_Z s)
  obtain ⟨d, hd1, e'⟩ := locOps_phase (l := p.nodes.erase u) fun n _ => (a1.op r n).symm
  refine ⟨c * d, by simp [hc1, hd1], fun ψ hψ => ?_⟩
  have hnoB : NoBit u ψ := hψ.noBit (h.prepared hu hi)
  have hne := h.simple.nodup.erase u
  have key := proj_diag (fun n => if n = u then 1 else sp.specOp r (p.specs n)) h.simple hu hnoB (by simp [Mat2.Diag])
    (decide (s = .minus))
  have hl : locOps (fun n => sp.specOp r (p.specs n)) p.nodes (entangleAll p.adj p.nodes ψ) =
      c • projOut u (ketB (decide (s = .minus))) (locOps (fun n => if n = u then 1 else sp.specOp r (p.specs n)) p.nodes
        (entangleAll p.adj p.nodes ψ)) := by
    rw [locOps_erase _ h.simple.nodup hu, locOps_erase _ h.simple.nodup hu, e, op1_mat_smul, projOut_eq_op1]
    simp only [if_true, op1_one]
    congr 2
    apply locOps_congr
    intro n hn
    rw [if_neg (h.simple.nodup.mem_erase_iff.1 hn).1]
  unfold Rpm.val
  rw [hl, key, n2, ad2, sp2, a1.nodes, a1.adj, entangle_erase h.simple.nodup, mul_smul]
  congr 1
  simp only [if_true, Matrix.one_apply_eq, one_smul]
  have h3 := e' (entangleAll p.adj (p.nodes.erase u) ψ)
  rw [← h3]
  apply locOps_congr
  intro n hn
  rw [if_neg (h.simple.nodup.mem_erase_iff.1 hn).1]
  congr 1
  cases hb : (decide (s = .minus) && p.adj u n) <;> simp [powB, Clifford.matrix_I, Clifford.matrix_Z]

theorem removeY_ok {sp : StdPattern} {cut : PauliCut} {p : Rpm} {π : Equiv.Perm ℕ} (hc : CutOk sp cut) (h : RInv sp cut p π)
    (ho : OutsOk sp p π) {u : ℕ} (hu : u ∈ p.nodes) (hi : u ∉ p.inputs) {s : Sign} (hm : (p.specs u).pauli = some ⟨.Y, s⟩) :
    ∃ p', p.removeY u s = .ok p' ∧ RInv sp cut p' π ∧ OutsOk sp p' π ∧ Sim sp p π p' π ∧ p'.nodes = p.nodes.erase u := by
  obtain ⟨p1, e1, h1, a1, s1⟩ := localComplement_ok h hu hi
  have ho1 : OutsOk sp p1 π := ⟨fun n => by rw [a1.outputs]; exact ho.1 n, fun n hn => by
    rw [a1.nodes]; rw [a1.outputs] at hn; exact ho.2 n hn⟩
  have hm1 : (p1.specs u).pauli = some ⟨.Z, s⟩ := by
    rw [a1.pauli]
    change ((p.specs u).pauli).map _ = _
    rw [hm]
    unfold lcK
    cases s <;> simp <;> decide
  obtain ⟨p2, e2, h2, o2, s2, n2, -⟩ := removeZ_ok hc h1 ho1 (u := u) (by rw [a1.nodes]; exact hu) (by rw [a1.inputs]; exact hi) hm1
  refine ⟨p2, ?_, h2, o2, s1.trans s2, by rw [n2, a1.nodes]⟩
  unfold Rpm.removeY
  rw [e1]; exact e2

theorem removeX_ok {sp : StdPattern} {cut : PauliCut} {p : Rpm} {π : Equiv.Perm ℕ} (hc : CutOk sp cut) (h : RInv sp cut p π)
    (ho : OutsOk sp p π) {u v : ℕ} (huv : p.adj u v = true) (hiu : u ∉ p.inputs) (hiv : v ∉ p.inputs) {s : Sign}
    (hm : (p.specs u).pauli = some ⟨.X, s⟩) :
    ∃ p', p.removeXWithInternalNeighbor u v s = .ok p' ∧ RInv sp cut p' ((Equiv.swap u v).trans π) ∧
      OutsOk sp p' ((Equiv.swap u v).trans π) ∧ Sim sp p π p' ((Equiv.swap u v).trans π) ∧ p'.nodes = p.nodes.erase v := by
  obtain ⟨p1, e1, h1, o1, s1, n1, i1, m1⟩ := pivotEdge_ok h ho huv hiu hiv
  have hv := h.simple.mem v u (by rw [h.simple.symm]; exact huv)
  have hm1 : (p1.specs v).pauli = some ⟨.Z, s⟩ := by
    rw [m1, hm]
    cases s <;> decide
  obtain ⟨p2, e2, h2, o2, s2, n2, -⟩ := removeZ_ok hc h1 o1 (u := v) (by rw [n1]; exact hv) (by rw [i1]; exact hiv) hm1
  refine ⟨p2, ?_, h2, o2, s1.trans s2, by rw [n2, n1]⟩
  unfold Rpm.removeXWithInternalNeighbor
  rw [e1]; exact e2

end Graphix
