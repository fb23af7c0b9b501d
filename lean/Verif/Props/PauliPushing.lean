import Verif.Model.PauliPushing
import Verif.Props.SpaceMin
import Verif.Proofs.Rewrite

/-!
# Property C15: Pauli pushing
-/

namespace Graphix

open scoped symmDiff

/-! ### Well-formed standardized patterns are runnable -/

theorem StdPattern.WF.cmds_runnable {sp : StdPattern} (hw : sp.WF) (edges : List (ℕ × ℕ))
    (hen : StdPattern.Enumerates edges sp.eSet) :
    Runnable sp.inputs (sp.cmds edges) ∧ introduced sp.inputs (sp.cmds edges) = sp.nodeList ∧
    measuredIn (sp.cmds edges) = sp.measNodes := by
  set pre := sp.nList.map nCmd ++ sp.mList.map MCmd.toCmd with hpre
  have hp : pre.filterMap Command.prepared? = sp.nList.map Prod.fst := by
    rw [hpre, List.filterMap_append, filterMap_map_some (k := Prod.fst) _ (fun _ => rfl),
      filterMap_map_none _ (fun _ => rfl), List.append_nil]
  have hm : measuredIn pre = sp.measNodes := by
    rw [hpre, measuredIn_append, filterMap_map_some (k := MCmd.node) _ (fun _ => rfl)]
    unfold measuredIn
    rw [filterMap_map_none _ (fun _ => rfl)]; rfl
  have hi : introduced sp.inputs pre = sp.nodeList := by unfold introduced; rw [hp]; rfl
  have hl : ∀ {k}, k ∈ sp.outputs → Live sp.inputs pre k := by
    intro k hk; unfold Live; rw [hi, hm]; exact (hw.out k).1 hk
  have hs : StdShape sp.inputs pre sp.toStdBody :=
    ⟨hw.nx, hw.nz, fun k hk => hl (hw.lc k hk), fun k hk => hl (hw.lx k hk),
      fun k hk => hl (hw.lz k hk), by rw [hi]; exact hw.edge, hp.symm, hm.symm, hw.mo,
      by rw [hm]; exact hw.dx, by rw [hm]; exact hw.dz⟩
  have := hs.cmds_runnable (by rw [hi]; exact hw.nodes_nodup) (by rw [hm]; exact hw.m_nodup)
    (by rw [hm, hi]; exact hw.m_sub) edges hen
  rwa [hi, hm] at this

theorem StdPattern.WF.toPattern_ok {sp : StdPattern} (hw : sp.WF) (edges : List (ℕ × ℕ))
    (hen : StdPattern.Enumerates edges sp.eSet) : ∃ q, sp.toPattern edges = .ok q := by
  obtain ⟨c1, c2, c3⟩ := hw.cmds_runnable edges hen
  unfold StdPattern.toPattern
  rw [if_neg]
  · obtain ⟨q, hq, -⟩ := rebuild_ok (inputs := sp.inputs) (outputs := sp.outputs) (cmds := sp.cmds edges)
      (List.nodup_append.1 hw.nodes_nodup).1 c1 hw.out_nodup
      (fun n => by unfold Live; rw [c2, c3]; exact hw.out n)
    exact ⟨q, hq⟩
  · rintro ⟨e, he, hee⟩
    refine hw.loop s(e.1, e.2) ?_ (by simpa using hee)
    rw [← hen.2]; simp only [List.mem_toFinset]; exact List.mem_map_of_mem he

/-! ### Paulis and Pauli measurements -/

theorem bra_pauli_X (m : PauliMeasurement) (b s : Bool) :
    MatPhaseEq (bra (measVec (.pauli m) (xor b (s && decide (m.axis ≠ .X)))) * powB Ops.X s)
      (bra (measVec (.pauli m) b)) := by
  cases s
  · simpa [powB] using MatPhaseEq.refl _
  · obtain ⟨ax, sg⟩ := m
    cases ax
    · simp only [powB, if_true]
      apply bra_conj
      cases b <;> simp [measureOperator_eq, observable, Ops.X, Ops.fromAxis, mat2_neg, mat2_conjTranspose, mat2_one, mat2_smul,
        mat2_add, mat2_mul]
    · simp only [powB, if_true]
      have := bra_flip (U := Ops.X) (.pauli ⟨.Y, sg⟩) b X_adj (by
        simp [observable, Ops.X, Ops.Y, Ops.fromAxis, mat2_neg, mat2_conjTranspose, mat2_smul, mat2_mul])
      simpa using this
    · simp only [powB, if_true]
      have := bra_flip (U := Ops.X) (.pauli ⟨.Z, sg⟩) b X_adj (by
        simp [observable, Ops.X, Ops.Z, Ops.fromAxis, mat2_neg, mat2_conjTranspose, mat2_smul, mat2_mul])
      simpa using this

theorem bra_pauli_Z (m : PauliMeasurement) (b s : Bool) :
    MatPhaseEq (bra (measVec (.pauli m) (xor b (s && decide (m.axis ≠ .Z)))) * powB Ops.Z s)
      (bra (measVec (.pauli m) b)) := by
  cases s
  · simpa [powB] using MatPhaseEq.refl _
  · obtain ⟨ax, sg⟩ := m
    cases ax
    · simp only [powB, if_true]
      have := bra_flip (U := Ops.Z) (.pauli ⟨.X, sg⟩) b Z_adj (by
        simp [observable, Ops.X, Ops.Z, Ops.fromAxis, mat2_neg, mat2_conjTranspose, mat2_smul, mat2_mul])
      simpa using this
    · simp only [powB, if_true]
      have := bra_flip (U := Ops.Z) (.pauli ⟨.Y, sg⟩) b Z_adj (by
        simp [observable, Ops.Z, Ops.Y, Ops.fromAxis, mat2_neg, mat2_conjTranspose, mat2_smul, mat2_mul])
      simpa using this
    · simp only [powB, if_true]
      apply bra_conj
      cases b <;> simp [measureOperator_eq, observable, Ops.Z, Ops.fromAxis, mat2_neg, mat2_conjTranspose, mat2_one, mat2_smul,
        mat2_add, mat2_mul]

/-- The toggle of the outcome of a Pauli measurement by `X^s Z^t`. -/
def pauliToggle (a : Axis) (s t : Bool) : Bool :=
  match a with
  | .X => t
  | .Y => xor s t
  | .Z => s

theorem bra_pauli (m : PauliMeasurement) (b s t : Bool) :
    MatPhaseEq (bra (measVec (.pauli m) (xor b (pauliToggle m.axis s t))) * (powB Ops.X s * powB Ops.Z t))
      (bra (measVec (.pauli m) b)) := by
  have h1 := bra_pauli_X m (xor b (t && decide (m.axis ≠ .Z))) s
  have h2 := bra_pauli_Z m b t
  have e : xor b (pauliToggle m.axis s t) =
      xor (xor b (t && decide (m.axis ≠ .Z))) (s && decide (m.axis ≠ .X)) := by
    cases m.axis <;> cases b <;> cases s <;> cases t <;> rfl
  rw [e, ← Matrix.mul_assoc]
  exact (h1.mul (MatPhaseEq.refl _)).trans h2

/-! ### The loop -/

/-- Invariant of the loop of `from_standardizedpattern` after the measurements `pre`. -/
structure CutInv (leave : Finset ℕ) (pre : List MCmd) (c : PauliCut) : Prop where
  sig : SigInv (pre.map MCmd.node).toFinset c.shifted
  perm : (c.pauli ++ c.nonPauli).map (fun m => (m.node, m.measurement)) |>.Perm
    (pre.map (fun m => (m.node, m.measurement)))
  pauliShape : ∀ m ∈ c.pauli, (∃ pm, m.measurement = .pauli pm) ∧ m.node ∉ leave ∧ m.sDomain = ∅ ∧
    m.tDomain = ∅
  nonPauliShape : ∀ m ∈ c.nonPauli, (∀ pm, m.measurement = .pauli pm → m.node ∈ leave)
  pauliOrder : (c.pauli.map MCmd.node).Sublist (pre.map MCmd.node)
  nonPauliOrder : (c.nonPauli.map MCmd.node).Sublist (pre.map MCmd.node)
  dom : ∀ a m b, c.nonPauli = a ++ m :: b → ∀ k, k ∈ m.sDomain ∨ k ∈ m.tDomain →
    k ∈ c.pauli.map MCmd.node ∨ k ∈ a.map MCmd.node
  sem : ∀ r', OpPhaseEq (semCmds r' ((c.pauli ++ c.nonPauli).map MCmd.toCmd))
    (semCmds (shiftBranch (SignalDict.at c.shifted) r') (pre.map MCmd.toCmd))
  lt : ∀ a m b, pre = a ++ m :: b → ∀ k ∈ SignalDict.at c.shifted m.node, k ∈ a.map MCmd.node

theorem domainsOk_of_ordered {l : List MCmd} (ho : MOrdered l) (hn : (l.map MCmd.node).Nodup) :
    DomainsOk ∅ (l.map MCmd.toCmd) := by
  intro p c q he
  obtain ⟨l1, l2, hl, rfl, hcb⟩ := List.map_eq_append_iff.1 he
  obtain ⟨m, l3, rfl, rfl, rfl⟩ := List.map_eq_cons_iff.1 hcb
  have hm : measuredIn (l1.map MCmd.toCmd) = l1.map MCmd.node := by
    unfold measuredIn; rw [filterMap_map_some (k := MCmd.node) _ (fun _ => rfl)]
  have := ho l1 m l3 hl
  simp only [MCmd.toCmd, Finset.empty_union]
  rw [hm]
  refine ⟨fun k hk => by simpa using this.1 k hk, fun k hk => by simpa using this.2 k hk, ?_⟩
  rw [hl, List.map_append, List.map_cons] at hn
  intro h
  exact (List.nodup_append.1 hn).2.2 m.node (by simpa using h) m.node (by simp) rfl

theorem measuredIn_mcmds (l : List MCmd) : measuredIn (l.map MCmd.toCmd) = l.map MCmd.node := by
  unfold measuredIn; rw [filterMap_map_some (k := MCmd.node) _ (fun _ => rfl)]

theorem CutInv.perm_node {leave : Finset ℕ} {pre : List MCmd} {c : PauliCut} (h : CutInv leave pre c) :
    ((c.pauli ++ c.nonPauli).map MCmd.node).Perm (pre.map MCmd.node) := by
  have := h.perm.map Prod.fst
  simpa [List.map_map, Function.comp_def] using this

set_option maxHeartbeats 1000000 in
theorem cutInv_snoc {leave : Finset ℕ} {pre : List MCmd} {cmd : MCmd}
    (ho : MOrdered (pre ++ [cmd])) (hn : ((pre ++ [cmd]).map MCmd.node).Nodup) {c : PauliCut}
    (h : CutInv leave pre c) : CutInv leave (pre ++ [cmd]) (c.step leave cmd) := by
  obtain ⟨n, m, s, t⟩ := cmd
  have hs : ∀ k ∈ s, k ∈ pre.map MCmd.node := (ho pre _ [] rfl).1
  have ht : ∀ k ∈ t, k ∈ pre.map MCmd.node := (ho pre _ [] rfl).2
  have hop : MOrdered pre := fun a m' b e => ho a m' (b ++ [(⟨n, m, s, t⟩ : MCmd)]) (by simp [e])
  rw [List.map_append, List.map_singleton] at hn
  have hnp : (pre.map MCmd.node).Nodup := (List.nodup_append.1 hn).1
  have hnn : n ∉ pre.map MCmd.node := fun hmem => (List.nodup_append.1 hn).2.2 n hmem n (by simp) rfl
  have hdom := domainsOk_of_ordered hop hnp
  set A := (pre.map MCmd.node).toFinset with hA
  have hes : ∀ k ∈ expandDomain c.shifted s, k ∈ pre.map MCmd.node := by
    intro k hk
    simpa [hA] using expandDomain_subset c.shifted s A (fun k hk => by simpa [hA] using hs k hk) h.sig.sub hk
  have het : ∀ k ∈ expandDomain c.shifted t, k ∈ pre.map MCmd.node := by
    intro k hk
    simpa [hA] using expandDomain_subset c.shifted t A (fun k hk => by simpa [hA] using ht k hk) h.sig.sub hk
  have hinc : ∀ k, k ∈ pre.map MCmd.node → k ∈ c.pauli.map MCmd.node ∨ k ∈ c.nonPauli.map MCmd.node := by
    intro k hk
    have := h.perm_node.mem_iff.2 hk
    simpa using this
  have hA' : ((pre ++ [(⟨n, m, s, t⟩ : MCmd)]).map MCmd.node).toFinset = A ∪ {n} := by
    rw [hA, List.map_append, List.toFinset_append]; rfl
  -- the two cases
  have hnon : (∀ pm, m = .pauli pm → n ∈ leave) → CutInv leave (pre ++ [(⟨n, m, s, t⟩ : MCmd)])
      { c with nonPauli := c.nonPauli ++ [(⟨n, m, expandDomain c.shifted s, expandDomain c.shifted t⟩ : MCmd)] } := by
    intro hm
    refine ⟨?_, ?_, h.pauliShape, ?_, ?_, ?_, ?_, ?_, ?_⟩
    · rw [hA']
      exact ⟨fun k => (h.sig.sub k).trans Finset.subset_union_left,
        fun k hk => h.sig.out k (fun hk' => hk (Finset.mem_union_left _ hk'))⟩
    · rw [← List.append_assoc, List.map_append, List.map_append (l₁ := pre)]
      exact h.perm.append_right _
    · intro m' hm'
      rcases List.mem_append.1 hm' with hm' | hm'
      · exact h.nonPauliShape m' hm'
      · rw [List.mem_singleton] at hm'; subst hm'; exact hm
    · rw [List.map_append]; exact h.pauliOrder.trans (List.sublist_append_left _ _)
    · rw [List.map_append, List.map_append]; exact h.nonPauliOrder.append (List.Sublist.refl _)
    · intro a m' b e k hk
      rcases List.eq_nil_or_concat b with rfl | ⟨b', x, rfl⟩
      · obtain ⟨rfl, e2⟩ := List.append_inj' e rfl
        simp only [List.cons.injEq, and_true] at e2
        subst e2
        rcases hk with hk | hk
        · exact hinc k (hes k hk)
        · exact hinc k (het k hk)
      · rw [List.concat_eq_append, show a ++ m' :: (b' ++ [x]) = (a ++ m' :: b') ++ [x] by simp] at e
        exact h.dom a m' b' (List.append_inj' e rfl).1 k hk
    · intro r'
      have ps : parity r' (expandDomain c.shifted s) = parity (shiftBranch (SignalDict.at c.shifted) r') s :=
        parity_expandDomain _ _ _
      have pt : parity r' (expandDomain c.shifted t) = parity (shiftBranch (SignalDict.at c.shifted) r') t :=
        parity_expandDomain _ _ _
      have pn : shiftBranch (SignalDict.at c.shifted) r' n = r' n := by
        unfold shiftBranch
        rw [h.sig.out n (by simpa [hA] using hnn), parity_empty, Bool.xor_false]
      have e1 : ∀ ψ, semCmds r' ((c.pauli ++ (c.nonPauli ++
          [(⟨n, m, expandDomain c.shifted s, expandDomain c.shifted t⟩ : MCmd)])).map MCmd.toCmd) ψ =
          (Command.M n m s t).sem (shiftBranch (SignalDict.at c.shifted) r')
            (semCmds r' ((c.pauli ++ c.nonPauli).map MCmd.toCmd) ψ) := by
        intro ψ
        rw [← List.append_assoc, List.map_append, semCmds_append]
        simp only [List.map_cons, List.map_nil, semCmds_cons, semCmds_nil, MCmd.toCmd]
        rw [sem_M, sem_M, ps, pt, pn]
      have e2 : ∀ ψ, semCmds (shiftBranch (SignalDict.at c.shifted) r') ((pre ++ [(⟨n, m, s, t⟩ : MCmd)]).map MCmd.toCmd) ψ =
          (Command.M n m s t).sem (shiftBranch (SignalDict.at c.shifted) r')
            (semCmds (shiftBranch (SignalDict.at c.shifted) r') (pre.map MCmd.toCmd) ψ) := by
        intro ψ; rw [List.map_append, semCmds_append]; rfl
      have h3 := OpPhaseEq.comp_left ((Command.M n m s t).sem_homog
        (shiftBranch (SignalDict.at c.shifted) r')) (h.sem r')
      exact (OpPhaseEq.of_eq e1).trans (h3.trans (OpPhaseEq.of_eq e2).symm)
    · intro a m' b e k hk
      rcases List.eq_nil_or_concat b with rfl | ⟨b', x, rfl⟩
      · obtain ⟨rfl, e2⟩ := List.append_inj' e rfl
        simp only [List.cons.injEq, and_true] at e2
        subst e2
        have : SignalDict.at c.shifted n = ∅ := h.sig.out n (by simpa [hA] using hnn)
        simp [this] at hk
      · rw [List.concat_eq_append, show a ++ m' :: (b' ++ [x]) = (a ++ m' :: b') ++ [x] by simp] at e
        exact h.lt a m' b' (List.append_inj' e rfl).1 k hk
  cases m with
  | bloch m => exact hnon (fun pm h => by cases h)
  | pauli pm =>
    by_cases hl : n ∈ leave
    · have := hnon (fun _ _ => hl)
      unfold PauliCut.step; simp only [hl, if_true]; exact this
    · -- the outcome is shifted
      clear hnon
      set D : Finset ℕ := match pm.axis with
        | .X => expandDomain c.shifted t
        | .Y => expandDomain c.shifted s ∆ expandDomain c.shifted t
        | .Z => expandDomain c.shifted s with hD
      have hDsub : ∀ k ∈ D, k ∈ pre.map MCmd.node := by
        intro k hk
        rw [hD] at hk
        cases hax : pm.axis <;> simp only [hax] at hk
        · exact het k hk
        · rcases Finset.mem_symmDiff.1 hk with hk | hk
          · exact hes k hk.1
          · exact het k hk.1
        · exact hes k hk
      have hstep : c.step leave ⟨n, .pauli pm, s, t⟩ =
          ⟨c.pauli ++ [(⟨n, .pauli pm, ∅, ∅⟩ : MCmd)], c.nonPauli, PyDict.set c.shifted n D⟩ := by
        unfold PauliCut.step
        simp only [hl, if_false]
        cases hax : pm.axis <;> simp [hD, hax]
      rw [hstep]
      have hat : ∀ k, SignalDict.at (PyDict.set c.shifted n D) k =
          if n = k then D else SignalDict.at c.shifted k := SignalDict.at_set _ _ _
      have hnon' : ∀ k ∈ pre.map MCmd.node, SignalDict.at (PyDict.set c.shifted n D) k =
          SignalDict.at c.shifted k := by
        intro k hk; rw [hat, if_neg (by rintro rfl; exact hnn hk)]
      refine ⟨?_, ?_, ?_, h.nonPauliShape, ?_, ?_, ?_, ?_, ?_⟩
      · rw [hA']
        refine ⟨fun k => ?_, fun k hk => ?_⟩
        · rw [hat]; split
          · intro j hj; exact Finset.mem_union_left _ (by simpa [hA] using hDsub j hj)
          · exact (h.sig.sub k).trans Finset.subset_union_left
        · rw [hat, if_neg (by rintro rfl; exact hk (by simp))]
          exact h.sig.out k (fun hk' => hk (Finset.mem_union_left _ hk'))
      · have : (c.pauli ++ [(⟨n, .pauli pm, ∅, ∅⟩ : MCmd)] ++ c.nonPauli).Perm
            (c.pauli ++ c.nonPauli ++ [(⟨n, .pauli pm, ∅, ∅⟩ : MCmd)]) := by
          rw [List.append_assoc, List.append_assoc]
          exact List.Perm.append_left _ List.perm_append_comm
        refine (this.map _).trans ?_
        rw [List.map_append, List.map_append (l₁ := pre)]
        exact h.perm.append_right _
      · intro m' hm'
        rcases List.mem_append.1 hm' with hm' | hm'
        · exact h.pauliShape m' hm'
        · rw [List.mem_singleton] at hm'; subst hm'; exact ⟨⟨pm, rfl⟩, hl, rfl, rfl⟩
      · rw [List.map_append, List.map_append]; exact h.pauliOrder.append (List.Sublist.refl _)
      · rw [List.map_append]; exact h.nonPauliOrder.trans (List.sublist_append_left _ _)
      · intro a m' b e k hk
        rcases h.dom a m' b e k hk with h' | h'
        · left; rw [List.map_append]; exact List.mem_append_left _ h'
        · exact Or.inr h'
      · intro r'
        set σ := shiftBranch (SignalDict.at (PyDict.set c.shifted n D)) r' with hσ
        have σpre : ∀ k ∈ pre.map MCmd.node, σ k = shiftBranch (SignalDict.at c.shifted) r' k := by
          intro k hk; rw [hσ]; unfold shiftBranch; rw [hnon' k hk]
        have σn : σ n = xor (r' n) (parity r' D) := by
          rw [hσ]; unfold shiftBranch; rw [hat, if_pos rfl]
        have ps : parity σ s = parity r' (expandDomain c.shifted s) := by
          rw [parity_expandDomain]; exact parity_congr (fun k hk => σpre k (hs k hk))
        have pt : parity σ t = parity r' (expandDomain c.shifted t) := by
          rw [parity_expandDomain]; exact parity_congr (fun k hk => σpre k (ht k hk))
        have pD : parity r' D = pauliToggle pm.axis (parity σ s) (parity σ t) := by
          rw [ps, pt, hD]
          cases pm.axis <;> simp [pauliToggle, parity_symmDiff]
        -- original: the last measurement, in branch σ
        have e2 : ∀ ψ, semCmds σ ((pre ++ [(⟨n, .pauli pm, s, t⟩ : MCmd)]).map MCmd.toCmd) ψ =
            (Command.M n (.pauli pm) s t).sem σ
              (semCmds (shiftBranch (SignalDict.at c.shifted) r') (pre.map MCmd.toCmd) ψ) := by
          intro ψ
          rw [List.map_append, semCmds_append]
          simp only [List.map_cons, List.map_nil, semCmds_cons, semCmds_nil]
          have hc := semCmds_congr (pre.map MCmd.toCmd) ∅ σ (shiftBranch (SignalDict.at c.shifted) r') hdom
            (fun k hk => σpre k (by
              rw [Finset.empty_union, measuredIn_mcmds, List.mem_toFinset] at hk; exact hk)) ψ
          rw [hc]; rfl
        have hM : OpPhaseEq ((Command.M n (.pauli pm) ∅ ∅).sem r') ((Command.M n (.pauli pm) s t).sem σ) := by
          have := bra_pauli pm (r' n) (parity σ s) (parity σ t)
          rw [← pD, ← σn] at this
          obtain ⟨k, hk, hh⟩ := this.symm.opPhase n
          refine ⟨k, hk, fun ψ => ?_⟩
          rw [sem_M, sem_M, parity_empty, powB_false, powB_false, Matrix.mul_one, Matrix.mul_one]
          exact hh ψ
        have e1 : ∀ ψ, semCmds r' ((c.pauli ++ [(⟨n, .pauli pm, ∅, ∅⟩ : MCmd)] ++ c.nonPauli).map MCmd.toCmd) ψ =
            (Command.M n (.pauli pm) ∅ ∅).sem r' (semCmds r' ((c.pauli ++ c.nonPauli).map MCmd.toCmd) ψ) := by
          intro ψ
          have hperm : (c.pauli ++ [(⟨n, .pauli pm, ∅, ∅⟩ : MCmd)] ++ c.nonPauli).Perm
              (c.pauli ++ c.nonPauli ++ [(⟨n, .pauli pm, ∅, ∅⟩ : MCmd)]) := by
            rw [List.append_assoc, List.append_assoc]
            exact List.Perm.append_left _ List.perm_append_comm
          rw [semCmds_meas_perm r' hperm, List.map_append, semCmds_append]
          · rfl
          · refine (hperm.map MCmd.node).nodup_iff.2 ?_
            rw [List.map_append]
            have := (h.perm_node.append_right [n]).nodup_iff.2 hn
            exact this
        have h3 := OpPhaseEq.comp ((Command.M n (.pauli pm) ∅ ∅).sem_homog r') hM (h.sem r')
        exact (OpPhaseEq.of_eq e1).trans (h3.trans (OpPhaseEq.of_eq e2).symm)
      · intro a m' b e k hk
        rcases List.eq_nil_or_concat b with rfl | ⟨b', x, rfl⟩
        · obtain ⟨rfl, e2⟩ := List.append_inj' e rfl
          simp only [List.cons.injEq, and_true] at e2
          subst e2
          rw [hat, if_pos rfl] at hk
          exact hDsub k hk
        · rw [List.concat_eq_append, show a ++ m' :: (b' ++ [x]) = (a ++ m' :: b') ++ [x] by simp] at e
          have e' := (List.append_inj' e rfl).1
          have : m'.node ∈ pre.map MCmd.node := by rw [e']; simp
          rw [hnon' _ this] at hk
          exact h.lt a m' b' e' k hk

theorem cutInv_nil (leave : Finset ℕ) : CutInv leave [] PauliCut.init := by
  refine ⟨SigInv.empty, List.Perm.refl _, by simp [PauliCut.init], by simp [PauliCut.init],
    by simp [PauliCut.init], by simp [PauliCut.init], ?_, fun r' => OpPhaseEq.refl _, ?_⟩
  · intro a m b e; simp [PauliCut.init] at e
  · intro a m b e; simp at e

theorem cutInv (leave : Finset ℕ) (l : List MCmd) (ho : MOrdered l) (hn : (l.map MCmd.node).Nodup) :
    CutInv leave l (l.foldl (PauliCut.step leave) PauliCut.init) := by
  induction l using List.reverseRecOn with
  | nil => exact cutInv_nil leave
  | append_singleton l cmd ih =>
    rw [List.foldl_append]
    refine cutInv_snoc ho hn (ih ?_ ?_)
    · exact fun a m' b e => ho a m' (b ++ [cmd]) (by simp [e])
    · rw [List.map_append] at hn; exact (List.nodup_append.1 hn).1

/-! ### C15 -/

theorem keys_expandCorrections (sig : SignalDict) (d : PyDict ℕ (Finset ℕ)) :
    PyDict.keys (PauliCut.expandCorrections sig d) = PyDict.keys d := by
  simp [PauliCut.expandCorrections, PyDict.keys, Function.comp_def]

theorem get?_expandCorrections (sig : SignalDict) (d : PyDict ℕ (Finset ℕ)) (k : ℕ) :
    PyDict.get? (PauliCut.expandCorrections sig d) k = (PyDict.get? d k).map (expandDomain sig) := by
  induction d with
  | nil => rfl
  | cons kv d ih =>
    obtain ⟨a, b⟩ := kv
    simp only [PauliCut.expandCorrections, List.map_cons, PyDict.get?_cons]
    split
    · rfl
    · exact ih

theorem domAt_expandCorrections (sig : SignalDict) (d : PyDict ℕ (Finset ℕ)) (k : ℕ) :
    domAt (PauliCut.expandCorrections sig d) k = expandDomain sig (domAt d k) := by
  unfold domAt
  rw [get?_expandCorrections]
  cases PyDict.get? d k with
  | none => simp [expandDomain]
  | some v => rfl

/-- **C15** Pauli pushing on a well-formed standardized pattern: the result is well-formed with the
same inputs, outputs, preparations and edges; its measurements are a list of Pauli measurements with
*empty* domains followed by the others (non-Pauli, or Pauli in `leave_nodes`), each in the original
relative order and with the same measurement description; and for every branch `r'` of the new
pattern, it does (up to a global phase, on every input state) what the original pattern does in the
branch obtained by toggling each outcome by the parity of its shifted domain.  That relabelling of
branches is a bijection. -/
theorem C15_pauli_pushing (sp : StdPattern) (hw : sp.WF) (leave : Finset ℕ) :
    (sp.performPauliPushing leave).WF ∧
    (sp.performPauliPushing leave).inputs = sp.inputs ∧
    (sp.performPauliPushing leave).outputs = sp.outputs ∧
    (sp.performPauliPushing leave).nList = sp.nList ∧
    (sp.performPauliPushing leave).eSet = sp.eSet ∧
    (∃ ps ns, (sp.performPauliPushing leave).mList = ps ++ ns ∧
      (∀ m ∈ ps, (∃ pm, m.measurement = .pauli pm) ∧ m.node ∉ leave ∧ m.sDomain = ∅ ∧ m.tDomain = ∅) ∧
      (∀ m ∈ ns, ∀ pm, m.measurement = .pauli pm → m.node ∈ leave) ∧
      (ps.map MCmd.node).Sublist (sp.mList.map MCmd.node) ∧
      (ns.map MCmd.node).Sublist (sp.mList.map MCmd.node) ∧
      ((ps ++ ns).map (fun m => (m.node, m.measurement))).Perm
        (sp.mList.map (fun m => (m.node, m.measurement)))) ∧
    (∀ edges, StdPattern.Enumerates edges sp.eSet → ∀ r' : ℕ → Bool,
      OpPhaseEq (semCmds r' ((sp.performPauliPushing leave).cmds edges))
        (semCmds (shiftBranch (SignalDict.at (PauliCut.ofStd leave sp).shifted) r') (sp.cmds edges))) ∧
    Function.Bijective (shiftBranch (SignalDict.at (PauliCut.ofStd leave sp).shifted)) := by
  have hi := cutInv leave sp.mList hw.mo hw.m_nodup
  change CutInv leave sp.mList (PauliCut.ofStd leave sp) at hi
  have hmem : ∀ n, n ∈ (sp.performPauliPushing leave).measNodes ↔ n ∈ sp.measNodes :=
    fun n => hi.perm_node.mem_iff
  have hsig : ∀ n, SignalDict.at (PauliCut.ofStd leave sp).shifted n ⊆ sp.measNodes.toFinset := hi.sig.sub
  have hexp : ∀ (D : Finset ℕ), (∀ k ∈ D, k ∈ sp.measNodes) →
      ∀ k ∈ expandDomain (PauliCut.ofStd leave sp).shifted D, k ∈ sp.measNodes := by
    intro D hD k hk
    have := expandDomain_subset _ D sp.measNodes.toFinset (fun k hk => by simpa using hD k hk) hsig hk
    simpa using this
  refine ⟨⟨hw.nodes_nodup, hw.edge, hw.loop, ?_, ?_, ?_, hw.out_nodup, ?_, hw.nc, ?_, ?_, hw.lc, ?_, ?_, ?_, ?_⟩,
    rfl, rfl, rfl, rfl, ⟨_, _, rfl, hi.pauliShape, hi.nonPauliShape, hi.pauliOrder, hi.nonPauliOrder, hi.perm⟩,
    ?_, ?_⟩
  · exact hi.perm_node.nodup_iff.2 hw.m_nodup
  · intro n hn; exact hw.m_sub n ((hmem n).1 hn)
  · intro a m b e
    change (PauliCut.ofStd leave sp).pauli ++ (PauliCut.ofStd leave sp).nonPauli = a ++ m :: b at e
    rcases List.append_eq_append_iff.1 e with ⟨as, h1, h2⟩ | ⟨bs, h1, h2⟩
    · refine ⟨fun k hk => ?_, fun k hk => ?_⟩
      · rw [h1, List.map_append, List.mem_append]; exact hi.dom as m b h2 k (Or.inl hk)
      · rw [h1, List.map_append, List.mem_append]; exact hi.dom as m b h2 k (Or.inr hk)
    · cases bs with
      | nil =>
        simp only [List.nil_append, List.append_nil] at h1 h2
        refine ⟨fun k hk => ?_, fun k hk => ?_⟩
        · rw [← h1]; simpa using hi.dom [] m b h2.symm k (Or.inl hk)
        · rw [← h1]; simpa using hi.dom [] m b h2.symm k (Or.inr hk)
      | cons x bs =>
        simp only [List.cons_append, List.cons.injEq] at h2
        have := hi.pauliShape m (by rw [h1, h2.1]; simp)
        rw [this.2.2.1, this.2.2.2]; simp
  · intro n; rw [hmem]; exact hw.out n
  · rw [show (sp.performPauliPushing leave).xDict =
      PauliCut.expandCorrections (PauliCut.ofStd leave sp).shifted sp.xDict from rfl,
      keys_expandCorrections]; exact hw.nx
  · rw [show (sp.performPauliPushing leave).zDict =
      PauliCut.expandCorrections (PauliCut.ofStd leave sp).shifted sp.zDict from rfl,
      keys_expandCorrections]; exact hw.nz
  · rw [show (sp.performPauliPushing leave).xDict =
      PauliCut.expandCorrections (PauliCut.ofStd leave sp).shifted sp.xDict from rfl,
      keys_expandCorrections]; exact hw.lx
  · rw [show (sp.performPauliPushing leave).zDict =
      PauliCut.expandCorrections (PauliCut.ofStd leave sp).shifted sp.zDict from rfl,
      keys_expandCorrections]; exact hw.lz
  · intro k i hik
    rw [show (sp.performPauliPushing leave).xDict =
      PauliCut.expandCorrections (PauliCut.ofStd leave sp).shifted sp.xDict from rfl,
      domAt_expandCorrections] at hik
    exact (hmem i).2 (hexp _ (hw.dx k) i hik)
  · intro k i hik
    rw [show (sp.performPauliPushing leave).zDict =
      PauliCut.expandCorrections (PauliCut.ofStd leave sp).shifted sp.zDict from rfl,
      domAt_expandCorrections] at hik
    exact (hmem i).2 (hexp _ (hw.dz k) i hik)
  · intro edges hen r'
    set σ := shiftBranch (SignalDict.at (PauliCut.ofStd leave sp).shifted) r' with hσ
    have hX : ∀ (d : PyDict ℕ (Finset ℕ)) ψ,
        semCmds r' ((PauliCut.expandCorrections (PauliCut.ofStd leave sp).shifted d).map
          (fun kv => Command.X kv.1 kv.2)) ψ = semCmds σ (d.map (fun kv => Command.X kv.1 kv.2)) ψ := by
      intro d
      induction d with
      | nil => intro ψ; rfl
      | cons kv d ih =>
        intro ψ
        simp only [PauliCut.expandCorrections, List.map_cons, semCmds_cons] at ih ⊢
        rw [ih]
        simp only [Command.sem, parity_expandDomain, ← hσ]
    have hZ : ∀ (d : PyDict ℕ (Finset ℕ)) ψ,
        semCmds r' ((PauliCut.expandCorrections (PauliCut.ofStd leave sp).shifted d).map
          (fun kv => Command.Z kv.1 kv.2)) ψ = semCmds σ (d.map (fun kv => Command.Z kv.1 kv.2)) ψ := by
      intro d
      induction d with
      | nil => intro ψ; rfl
      | cons kv d ih =>
        intro ψ
        simp only [PauliCut.expandCorrections, List.map_cons, semCmds_cons] at ih ⊢
        rw [ih]
        simp only [Command.sem, parity_expandDomain, ← hσ]
    have hN : ∀ (l : List (ℕ × PlanarState)) ψ, semCmds r' (l.map (fun n => Command.N n.1 n.2)) ψ =
        semCmds σ (l.map (fun n => Command.N n.1 n.2)) ψ := by
      intro l; induction l with
      | nil => intro ψ; rfl
      | cons x l ih => intro ψ; simp only [List.map_cons, semCmds_cons, ih]; rfl
    have hE : ∀ (l : List (ℕ × ℕ)) ψ, semCmds r' (l.map (fun n => Command.E n.1 n.2)) ψ =
        semCmds σ (l.map (fun n => Command.E n.1 n.2)) ψ := by
      intro l; induction l with
      | nil => intro ψ; rfl
      | cons x l ih => intro ψ; simp only [List.map_cons, semCmds_cons, ih]; rfl
    have hC : ∀ (l : PyDict ℕ Clifford) ψ, semCmds r' (l.map (fun n => Command.C n.1 n.2)) ψ =
        semCmds σ (l.map (fun n => Command.C n.1 n.2)) ψ := by
      intro l; induction l with
      | nil => intro ψ; rfl
      | cons x l ih => intro ψ; simp only [List.map_cons, semCmds_cons, ih]; rfl
    set L := fun ψ => semCmds σ (sp.cDict.map (fun n => Command.C n.1 n.2))
      (semCmds σ (sp.xDict.map (fun n => Command.X n.1 n.2)) (semCmds σ (sp.zDict.map (fun n => Command.Z n.1 n.2)) ψ)) with hL
    have hLh : Homog L := (semCmds_homog _ _).comp ((semCmds_homog _ _).comp (semCmds_homog _ _))
    set R := fun ψ => semCmds σ (edges.map (fun n => Command.E n.1 n.2))
      (semCmds σ (sp.nList.map (fun n => Command.N n.1 n.2)) ψ) with hR
    have h3 := OpPhaseEq.comp_left hLh ((hi.sem r').comp_right R)
    refine (OpPhaseEq.of_eq fun ψ => ?_).trans (h3.trans (OpPhaseEq.of_eq fun ψ => ?_))
    · unfold StdPattern.cmds
      simp only [semCmds_append]
      rw [show (sp.performPauliPushing leave).xDict =
        PauliCut.expandCorrections (PauliCut.ofStd leave sp).shifted sp.xDict from rfl,
        show (sp.performPauliPushing leave).zDict =
        PauliCut.expandCorrections (PauliCut.ofStd leave sp).shifted sp.zDict from rfl, hX, hZ, hC, hE, hN]
      rfl
    · unfold StdPattern.cmds
      simp only [semCmds_append]
      rfl
  · -- rank: position in the measurement order
    refine shiftBranch_bijective _ (fun n => if n ∈ sp.measNodes then sp.measNodes.idxOf n else 0) ?_
    intro n k hk
    by_cases hn : n ∈ sp.measNodes
    · obtain ⟨m, hm, rfl⟩ := List.mem_map.1 hn
      obtain ⟨a, b, e⟩ := List.append_of_mem hm
      have hk' := hi.lt a m b e k hk
      have hkm : k ∈ sp.measNodes := by
        unfold StdPattern.measNodes; rw [e, List.map_append]; exact List.mem_append_left _ hk'
      simp only [hkm, hn, if_true]
      have hnd := hw.m_nodup
      unfold StdPattern.measNodes at hnd ⊢
      rw [e, List.map_append, List.map_cons] at hnd ⊢
      have hmn : m.node ∉ a.map MCmd.node :=
        fun h => (List.nodup_append.1 hnd).2.2 m.node h m.node (by simp) rfl
      rw [List.idxOf_append_of_mem hk', List.idxOf_append_of_notMem hmn]
      have := List.idxOf_lt_length_of_mem hk'
      omega
    · rw [hi.sig.out n (by simpa [StdPattern.measNodes] using hn)] at hk
      simp at hk


/-- A Pauli measurement outside `leave` has empty domains, and precedes every measurement that is not
of that kind. -/
def PauliFirst (leave : Finset ℕ) (seq : List Command) : Prop :=
  (∀ n pm s t, Command.M n (.pauli pm) s t ∈ seq → n ∉ leave → s = ∅ ∧ t = ∅) ∧
  ∀ a b n m s t, seq = a ++ Command.M n m s t :: b → ((∃ k, m = .bloch k) ∨ n ∈ leave) →
    ∀ n' pm s' t', Command.M n' (.pauli pm) s' t' ∈ b → n' ∈ leave

theorem pauliFirst_of_measurements {leave : Finset ℕ} {seq : List Command} {ps ns : List MCmd}
    (e : seq.filter (fun c => c.measured?.isSome) = (ps ++ ns).map MCmd.toCmd)
    (hps : ∀ m ∈ ps, (∃ pm, m.measurement = .pauli pm) ∧ m.node ∉ leave ∧ m.sDomain = ∅ ∧ m.tDomain = ∅)
    (hns : ∀ m ∈ ns, ∀ pm, m.measurement = .pauli pm → m.node ∈ leave) : PauliFirst leave seq := by
  have hmem : ∀ n m s t, Command.M n m s t ∈ seq → (⟨n, m, s, t⟩ : MCmd) ∈ ps ∨ (⟨n, m, s, t⟩ : MCmd) ∈ ns := by
    intro n m s t h
    have : Command.M n m s t ∈ seq.filter (fun c => c.measured?.isSome) := List.mem_filter.2 ⟨h, rfl⟩
    rw [e] at this
    obtain ⟨x, hx, hh⟩ := List.mem_map.1 this
    obtain ⟨a, b, c, d⟩ := x
    simp only [MCmd.toCmd, Command.M.injEq] at hh
    obtain ⟨rfl, rfl, rfl, rfl⟩ := hh
    exact List.mem_append.1 hx
  refine ⟨?_, ?_⟩
  · intro n pm s t h hn
    rcases hmem n _ s t h with h | h
    · exact ⟨(hps _ h).2.2.1, (hps _ h).2.2.2⟩
    · exact absurd (hns _ h pm rfl) hn
  · intro a b n m s t hs hk n' pm s' t' hb
    by_contra hn'
    subst hs
    rw [List.filter_append, List.filter_cons_of_pos (by rfl)] at e
    have hb' : Command.M n' (.pauli pm) s' t' ∈ b.filter (fun c => c.measured?.isSome) :=
      List.mem_filter.2 ⟨hb, rfl⟩
    rw [List.map_append] at e
    rcases List.append_eq_append_iff.1 e with ⟨u, h1, h2⟩ | ⟨u, h1, h2⟩
    · -- the measurement is in `u ++ ns`
      cases u with
      | nil =>
        rw [List.nil_append] at h2
        have : Command.M n' (.pauli pm) s' t' ∈ ns.map MCmd.toCmd := by rw [← h2]; exact List.mem_cons_of_mem _ hb'
        obtain ⟨x, hx, hh⟩ := List.mem_map.1 this
        obtain ⟨x1, x2, x3, x4⟩ := x
        simp only [MCmd.toCmd, Command.M.injEq] at hh
        obtain ⟨rfl, rfl, rfl, rfl⟩ := hh
        exact hn' (hns _ hx pm rfl)
      | cons y u =>
        rw [List.cons_append, List.cons.injEq] at h2
        have : Command.M n m s t ∈ ps.map MCmd.toCmd := by rw [h1, h2.1]; simp
        obtain ⟨x, hx, hh⟩ := List.mem_map.1 this
        obtain ⟨x1, x2, x3, x4⟩ := x
        simp only [MCmd.toCmd, Command.M.injEq] at hh
        obtain ⟨rfl, rfl, rfl, rfl⟩ := hh
        obtain ⟨⟨pm', hpm⟩, hl, -⟩ := hps _ hx
        rcases hk with ⟨k, hk⟩ | hk
        · rw [hk] at hpm; cases hpm
        · exact hl hk
    · have : Command.M n' (.pauli pm) s' t' ∈ ns.map MCmd.toCmd := by
        rw [h2]; exact List.mem_append_right _ (List.mem_cons_of_mem _ hb')
      obtain ⟨x, hx, hh⟩ := List.mem_map.1 this
      obtain ⟨x1, x2, x3, x4⟩ := x
      simp only [MCmd.toCmd, Command.M.injEq] at hh
      obtain ⟨rfl, rfl, rfl, rfl⟩ := hh
      exact hn' (hns _ hx pm rfl)

theorem filter_meas_mcmds (l : List MCmd) :
    (l.map MCmd.toCmd).filter (fun c => c.measured?.isSome) = l.map MCmd.toCmd := by
  rw [List.filter_eq_self]
  intro c hc
  obtain ⟨m, -, rfl⟩ := List.mem_map.1 hc
  rfl

theorem filter_meas_nil {α : Type} (l : List α) (f : α → Command) (hf : ∀ a, (f a).measured? = none) :
    (l.map f).filter (fun c => c.measured?.isSome) = [] := by
  rw [List.filter_eq_nil_iff]
  intro c hc
  obtain ⟨m, -, rfl⟩ := List.mem_map.1 hc
  simp [hf]

theorem filter_meas_cmds (sp : StdPattern) (edges : List (ℕ × ℕ)) :
    (sp.cmds edges).filter (fun c => c.measured?.isSome) = sp.mList.map MCmd.toCmd := by
  unfold StdPattern.cmds
  simp only [List.filter_append]
  rw [filter_meas_nil sp.nList _ (fun _ => rfl), filter_meas_nil edges _ (fun _ => rfl),
    filter_meas_nil sp.zDict _ (fun _ => rfl), filter_meas_nil sp.xDict _ (fun _ => rfl),
    filter_meas_nil sp.cDict _ (fun _ => rfl)]
  have := filter_meas_mcmds sp.mList
  simpa using this

theorem filter_meas_optCorrections (sp : StdPattern) (l : List ℕ) :
    (l.flatMap sp.optCorrections).filter (fun c => c.measured?.isSome) = [] := by
  rw [List.filter_eq_nil_iff]
  intro c hc
  obtain ⟨n, -, h⟩ := List.mem_flatMap.1 hc
  unfold StdPattern.optCorrections at h
  simp only [List.mem_append] at h
  rcases h with (h | h) | h
  · split at h
    · split at h
      · rw [List.mem_singleton] at h; subst h; simp [Command.measured?]
      · simp at h
    · simp at h
  · split at h
    · split at h
      · rw [List.mem_singleton] at h; subst h; simp [Command.measured?]
      · simp at h
    · simp at h
  · split at h
    · rw [List.mem_singleton] at h; subst h; simp [Command.measured?]
    · simp at h

theorem filter_meas_spaceOptimal {sp : StdPattern} (hw : sp.WF) {nbr : ℕ → List ℕ} (hb : NbrOk sp.eSet nbr)
    {q : Pattern} (h : sp.toSpaceOptimalPattern nbr = .ok q) :
    q.seq.filter (fun c => c.measured?.isSome) = sp.mList.map MCmd.toCmd := by
  obtain ⟨st, h1, e1, -, -⟩ := toSpaceOptimal_ok h
  obtain ⟨st', h1', -, -, -, hl⟩ := optSeq_inv hw hb
  rw [h1] at h1'; cases h1'
  have : q.seq.filter (fun c => c.measured?.isSome) =
      (localPart st.seq).filter (fun c => c.measured?.isSome) := by
    rw [e1, localPart, List.filter_filter]
    apply List.filter_congr
    intro c _
    cases c <;> simp [Command.measured?, Command.local?]
  rw [this, hl, List.filter_append, filter_meas_mcmds, filter_meas_optCorrections, List.append_nil]

/-- **C15** The API: `pattern.perform_pauli_pushing(leave_nodes, copy=True)` succeeds on every pattern
that `StandardizedPattern.from_pattern` accepts.  The result is runnable, has the same inputs and
outputs, measures the same nodes with the same measurement descriptions, starts with the Pauli
measurements (with empty domains), and is equivalent to the original pattern up to a bijective
relabelling of the branches. -/
theorem C15_pattern (p : Pattern) (hp : p.OutputsOk) (hE : NoSelfLoop p.seq) (sp : StdPattern)
    (h : StdPattern.fromPattern p = .ok sp) (leave : Finset ℕ) (nbr : ℕ → List ℕ)
    (hb : NbrOk sp.eSet nbr) :
    ∃ q, p.performPauliPushing leave nbr = .ok q ∧ q.checkRunnability = .ok () ∧
      q.inputs = p.inputs ∧ q.outputs = p.outputs ∧ (measuredIn q.seq).Perm (measuredIn p.seq) ∧
      PauliFirst leave q.seq ∧
      ∃ β : (ℕ → Bool) → (ℕ → Bool), Function.Bijective β ∧
        ∀ r, OpPhaseEq (semCmds r q.seq) (semCmds (β r) p.seq) := by
  have hw := fromPattern_wf hp hE h
  have hinv := fromPattern_inv hE h
  obtain ⟨-, -, e1, e2⟩ := fromPattern_ok h
  obtain ⟨w1, w2, w3, -, w5, ⟨ps, ns, m1, m2, m3, -, -, m6⟩, w7, w8⟩ := C15_pauli_pushing sp hw leave
  have hb' : NbrOk (sp.performPauliPushing leave).eSet nbr := by rw [w5]; exact hb
  obtain ⟨q, hq⟩ := C19_succeeds _ w1 nbr hb'
  obtain ⟨c1, c2, c3, c4, -, c6, -⟩ := C19_to_space_optimal _ w1 nbr hb' q hq
  obtain ⟨edges, hen⟩ := enumerates_exists sp.eSet
  refine ⟨q, ?_, c1, by rw [c2, w2, e1], by rw [c3, w3, e2], ?_, ?_, _, w8, fun r => ?_⟩
  · unfold Pattern.performPauliPushing; rw [h]; exact hq
  · rw [c4, m1, ← hinv.ml]
    have := m6.map Prod.fst
    simpa [List.map_map, Function.comp_def] using this
  · refine pauliFirst_of_measurements (ps := ps) (ns := ns) ?_ m2 m3
    rw [filter_meas_spaceOptimal w1 hb' hq, m1]
  · refine (OpPhaseEq.of_eq (fun ψ => c6 edges (by rw [w5]; exact hen) r ψ)).trans ?_
    refine (w7 edges hen r).trans ?_
    refine (OpPhaseEq.of_eq (fun ψ => semCmds_cmds sp edges hen _ ψ)).trans (hinv.sem _).symm

/-- **C15** The same for `perform_pauli_pushing(standardize=True)`; the result is moreover in standard
form (preparations, then entangling, then measurements, then corrections). -/
theorem C15_pattern_standardized (p : Pattern) (hp : p.OutputsOk) (hE : NoSelfLoop p.seq) (sp : StdPattern)
    (h : StdPattern.fromPattern p = .ok sp) (leave : Finset ℕ) (edges : List (ℕ × ℕ))
    (hen : StdPattern.Enumerates edges sp.eSet) :
    ∃ q, p.performPauliPushingStd leave edges = .ok q ∧ q.checkRunnability = .ok () ∧
      q.inputs = p.inputs ∧ q.outputs = p.outputs ∧ (measuredIn q.seq).Perm (measuredIn p.seq) ∧
      PauliFirst leave q.seq ∧ q.isStandard true = true ∧
      ∃ β : (ℕ → Bool) → (ℕ → Bool), Function.Bijective β ∧
        ∀ r, OpPhaseEq (semCmds r q.seq) (semCmds (β r) p.seq) := by
  have hw := fromPattern_wf hp hE h
  have hinv := fromPattern_inv hE h
  obtain ⟨-, -, e1, e2⟩ := fromPattern_ok h
  obtain ⟨w1, w2, w3, -, w5, ⟨ps, ns, m1, m2, m3, -, -, m6⟩, w7, w8⟩ := C15_pauli_pushing sp hw leave
  have hen' : StdPattern.Enumerates edges (sp.performPauliPushing leave).eSet := by rw [w5]; exact hen
  obtain ⟨q, hq⟩ := w1.toPattern_ok edges hen'
  obtain ⟨c1, c2, c3, -, -⟩ := toPattern_ok hq
  obtain ⟨r1, r2, r3⟩ := w1.cmds_runnable edges hen'
  refine ⟨q, ?_, ?_, by rw [c2, w2, e1], by rw [c3, w3, e2], ?_, ?_, ?_, _, w8, fun r => ?_⟩
  · unfold Pattern.performPauliPushingStd; rw [h]; exact hq
  · rw [checkRunnability_iff, c1, c2]; exact r1
  · rw [c1, r3, ← hinv.ml, StdPattern.measNodes, m1]
    have := m6.map Prod.fst
    simpa [List.map_map, Function.comp_def] using this
  · refine pauliFirst_of_measurements (ps := ps) (ns := ns) ?_ m2 m3
    rw [c1, filter_meas_cmds, m1]
  · unfold Pattern.isStandard; rw [c1]; exact cmds_standard _ _
  · rw [c1]
    refine (w7 edges hen r).trans ?_
    refine (OpPhaseEq.of_eq (fun ψ => semCmds_cmds sp edges hen _ ψ)).trans (hinv.sem _).symm

/-- **C15** Through outcomes as the API hands them out: for an outcome dictionary `o'` of the pushed
pattern covering the measured nodes, `shift_outcomes(o', shifted_domains)` succeeds and names a branch of the
original in which it does the same. -/
theorem C15_shift_outcomes (sp : StdPattern) (hw : sp.WF) (leave : Finset ℕ) (edges : List (ℕ × ℕ))
    (hen : StdPattern.Enumerates edges sp.eSet) (o' : PyDict ℕ Bool)
    (ho : ∀ m ∈ sp.mList, m.node ∈ PyDict.keys o') :
    ∃ o, shiftOutcomes? o' (PauliCut.ofStd leave sp).shifted = some o ∧ PyDict.keys o = PyDict.keys o' ∧
      OpPhaseEq (semCmds (branchOf o') ((sp.performPauliPushing leave).cmds edges))
        (semCmds (branchOf o) (sp.cmds edges)) := by
  have hi := cutInv leave sp.mList hw.mo hw.m_nodup
  change CutInv leave sp.mList (PauliCut.ofStd leave sp) at hi
  have ho' : ∀ n ∈ sp.measNodes, n ∈ PyDict.keys o' := by
    intro n hn; obtain ⟨m, hm, rfl⟩ := List.mem_map.1 hn; exact ho m hm
  obtain ⟨o, h1, h2, h3⟩ := shiftOutcomes?_spec (PauliCut.ofStd leave sp).shifted o' (fun n => by
    refine (hi.sig.sub n).trans ?_
    intro k hk; simp only [List.mem_toFinset] at hk ⊢; exact ho' k hk)
  obtain ⟨-, -, -, -, -, -, w7, -⟩ := C15_pauli_pushing sp hw leave
  obtain ⟨r1, -, r3⟩ := hw.cmds_runnable edges hen
  refine ⟨o, h1, h2, (w7 edges hen (branchOf o')).trans (OpPhaseEq.of_eq ?_)⟩
  apply semCmds_congr _ ∅ _ _ (DomainsOk.of_runnable r1)
  intro n hn
  simp only [Finset.empty_union, List.mem_toFinset, r3] at hn
  exact (h3 n (ho' n hn)).symm

/-- A pattern with a Pauli measurement (of 1, with an s-domain) after a non-Pauli one. -/
noncomputable def pushExample : Pattern :=
  (Pattern.empty [0]).extend
    [.N 1 .plus, .E 0 1, .M 0 (.bloch ⟨1/4, .XY⟩) ∅ ∅, .N 2 .plus, .E 1 2,
     .M 1 (.pauli ⟨.Y, .plus⟩) {0} ∅, .X 2 {1}, .Z 2 {0}]

theorem pushExample_runnable : pushExample.checkRunnability = .ok () := rfl

theorem pushExample_outputsOk : pushExample.OutputsOk := by
  refine ⟨by decide, by decide, fun n => ?_⟩
  have : pushExample.outputs = [2] := rfl
  rw [this]
  have hl : (introduced [0] pushExample.seq).filter (fun n => n ∉ measuredIn pushExample.seq) = [2] := rfl
  have h2 : n ∈ (introduced [0] pushExample.seq).filter (fun n => n ∉ measuredIn pushExample.seq) ↔
      Live pushExample.inputs pushExample.seq n := by
    simp only [List.mem_filter, decide_eq_true_eq]; rfl
  rw [← h2, hl]

example : pushExample.OutputsOk ∧ NoSelfLoop pushExample.seq ∧ ∃ sp, StdPattern.fromPattern pushExample = .ok sp := by
  refine ⟨pushExample_outputsOk, ?_, _, rfl⟩
  intro u v h
  have h' : Command.E u v ∈ [Command.N 1 .plus, .E 0 1, .M 0 (.bloch ⟨1/4, .XY⟩) ∅ ∅, .N 2 .plus, .E 1 2,
     .M 1 (.pauli ⟨.Y, .plus⟩) {0} ∅, .X 2 {1}, .Z 2 {0}] := h
  simp at h'
  omega

end Graphix
