import Verif.Proofs.RemovePauliLoop

/-! Removing the isolated nodes. -/

namespace Graphix

open Function

/-- As `Sim`, with an arbitrary factor, of modulus one if `exact`. -/
def SimW (sp : StdPattern) (p : Rpm) (π : Equiv.Perm ℕ) (p' : Rpm) (π' : Equiv.Perm ℕ) (exact : Prop) : Prop :=
  (∀ w, p.nodeMap w = none → p'.nodeMap w = none) ∧
  ∀ r : ℕ → Bool, (∀ w, p'.nodeMap w = none → r w = false) →
    ∃ c : ℂ, (exact → ‖c‖ = 1) ∧ ∀ ψ, sp.InOk ψ → ren π (p.val sp r ψ) = c • ren π' (p'.val sp r ψ)

theorem Sim.transW {sp : StdPattern} {p p' p'' : Rpm} {π π' π'' : Equiv.Perm ℕ} {ex : Prop} (h : Sim sp p π p' π')
    (h' : SimW sp p' π' p'' π'' ex) : SimW sp p π p'' π'' ex := by
  refine ⟨fun w hw => h'.1 w (h.1 w hw), fun r hr => ?_⟩
  obtain ⟨c, hc, e⟩ := h.2 r fun w hw => hr w (h'.1 w hw)
  obtain ⟨d, hd, e'⟩ := h'.2 r hr
  refine ⟨c * d, fun he => by simp [hc, hd he], fun ψ hψ => ?_⟩
  rw [e ψ hψ, e' ψ hψ, smul_smul]

theorem RInv.perm_mem {sp : StdPattern} {cut : PauliCut} {p : Rpm} {π : Equiv.Perm ℕ} (h : RInv sp cut p π) (n : ℕ) :
    π n ∈ sp.nList.map Prod.fst ↔ n ∈ sp.nList.map Prod.fst := by
  constructor
  · intro hn
    by_contra hc
    rw [h.fix n hc] at hn; exact hc hn
  · intro hn
    by_contra hc
    have := π.injective (h.fix _ hc)
    rw [this] at hc; exact hc hn

theorem RInv.orig_mem {sp : StdPattern} {cut : PauliCut} {p : Rpm} {π : Equiv.Perm ℕ} (h : RInv sp cut p π) {n : ℕ}
    (hn : n ∈ p.nodes) : π n ∈ sp.nodeList := by
  by_cases hc : n ∈ sp.nList.map Prod.fst
  · exact List.mem_append_right _ ((h.perm_mem n).2 hc)
  · rw [h.fix n hc]; exact h.mem n hn

theorem RInv.orig_meas {sp : StdPattern} {cut : PauliCut} {p : Rpm} {π : Equiv.Perm ℕ} (hw : sp.WF) (h : RInv sp cut p π)
    (ho : OutsOk sp p π) {n : ℕ} (hn : n ∈ p.nodes) : n ∉ p.outputs ↔ π n ∈ sp.measNodes := by
  rw [ho.1, hw.out]
  constructor
  · intro h'
    by_contra hc
    exact h' ⟨h.orig_mem hn, hc⟩
  · intro h' hc; exact hc.2 h'

/-- The operators at measured nodes are bras. -/
theorem specOp_bra {sp : StdPattern} (hw : sp.WF) {s : NodeSpec} (hs : s.src ∈ sp.measNodes) (r : ℕ → Bool) :
    ∃ v, sp.specOp r s = bra v := by
  obtain ⟨m, hm, e⟩ := List.mem_map.1 hs
  unfold StdPattern.specOp StdPattern.baseOp
  rw [if_pos hs, ← e, hw.nodeOp_meas r hm]
  generalize (powB Ops.X (parity r m.sDomain) * powB Ops.Z (parity r m.tDomain)) = A
  generalize (s.clifford.matrix * (powB Ops.X (parity r s.domains.s) * powB Ops.Z (parity r s.domains.t))) = B
  rw [Matrix.mul_assoc]
  generalize A * B = C
  refine ⟨fun j => star (star (measVec m.measurement (r m.node) false) * C false j + star (measVec m.measurement (r m.node) true) * C true j), ?_⟩
  funext i j
  rw [mul2_apply]
  simp [bra]

/-- Removing an isolated node. -/
theorem removeIso_sim {sp : StdPattern} {cut : PauliCut} {p p' : Rpm} {π : Equiv.Perm ℕ} (hw : sp.WF) (h : RInv sp cut p π)
    (ho : OutsOk sp p π) {u : ℕ}
    (hu : u ∈ p.nodes) (hi : u ∉ p.inputs) (hno : u ∉ p.outputs) (hiso : ∀ x, p.adj u x = false) (hn : p'.nodes = p.nodes.erase u)
    (ha : p'.adj = fun x y => p.adj x y && decide (x ≠ u) && decide (y ≠ u)) (hs : p'.specs = p.specs) (r : ℕ → Bool) :
    ∃ c : ℂ, ∀ ψ, sp.InOk ψ → p.val sp r ψ = c • p'.val sp r ψ := by
  obtain ⟨v, hv⟩ := specOp_bra hw (s := p.specs u) (by rw [h.src u hu]; exact (h.orig_meas hw ho hu).1 hno) r
  refine ⟨star (v false) + star (v true), fun ψ hψ => ?_⟩
  have hnb : NoBit u ψ := hψ.noBit (h.prepared hu hi)
  have key := proj_isolated (fun n => if n = u then 1 else sp.specOp r (p.specs n)) h.simple hu hnb hiso v
  have hl : locOps (fun n => sp.specOp r (p.specs n)) p.nodes (entangleAll p.adj p.nodes ψ) =
      projOut u v (locOps (fun n => if n = u then 1 else sp.specOp r (p.specs n)) p.nodes
        (entangleAll p.adj p.nodes ψ)) := by
    rw [locOps_erase _ h.simple.nodup hu, locOps_erase _ h.simple.nodup hu, hv, projOut_eq_op1]
    simp only [if_true, op1_one]
    congr 1
    apply locOps_congr
    intro n hn
    rw [if_neg (h.simple.nodup.mem_erase_iff.1 hn).1]
  unfold Rpm.val
  rw [hl, key, hn, ha, hs, entangle_erase h.simple.nodup]
  congr 1
  · simp
  · apply locOps_congr
    intro n hn
    rw [if_neg (h.simple.nodup.mem_erase_iff.1 hn).1]

/-- What holds after the removal of the isolated nodes. -/
structure FinalOk (sp : StdPattern) (p : Rpm) (π : Equiv.Perm ℕ) : Prop where
  axis : ∀ n ∈ p.nodes, n ∉ p.inputs → ∀ m, (p.specs n).pauli = some m → m.axis = .X
  onlyInputs : ∀ n ∈ p.nodes, n ∉ p.inputs → (p.specs n).pauli.isSome → ∀ k, p.adj n k = true → k ∈ p.inputs
  connected : ∀ n ∈ p.nodes, n ∉ p.inputs → n ∉ p.outputs → ∃ k, p.adj n k = true

theorem isolated_fold {sp : StdPattern} {cut : PauliCut} {π : Equiv.Perm ℕ} (hw : sp.WF) (l : List ℕ) (hl : l.Nodup) :
    ∀ (p : Rpm) (k : ℕ), RInv sp cut p π → OutsOk sp p π → (∀ n ∈ l, n ∈ p.nodes ∧ ∀ x, p.adj n x = false) →
    ∃ p' k', l.foldlM (fun ((p, warnings) : Rpm × ℕ) n =>
      if n ∉ p.inputs ∧ n ∉ p.outputs then do
        let p ← p.removeNode n
        pure (p, warnings + 1)
      else pure (p, warnings)) (p, k) = (Except.ok (p', k') : Except PyErr (Rpm × ℕ)) ∧ RInv sp cut p' π ∧ OutsOk sp p' π ∧
      SimW sp p π p' π (k' = k) ∧ k ≤ k' ∧
      p'.specs = p.specs ∧ p'.adj = p.adj ∧ p'.inputs = p.inputs ∧ p'.outputs = p.outputs ∧ (p'.nodes.Sublist p.nodes) ∧
      (∀ a, p'.pauli a ⊆ p.pauli a) ∧ ∀ n ∈ l, n ∈ p'.nodes → n ∈ p.inputs ∨ n ∈ p.outputs := by
  induction l with
  | nil =>
    intro p k h ho _
    exact ⟨p, k, rfl, h, ho, ⟨fun _ h => h, fun _ _ => ⟨1, fun _ => by simp, fun ψ _ => by simp⟩⟩, le_rfl, rfl, rfl, rfl, rfl, List.Sublist.refl _,
      fun _ => subset_rfl, fun n hn => by cases hn⟩
  | cons u l ih =>
    intro p k h ho hiso
    rw [List.nodup_cons] at hl
    obtain ⟨hu, hux⟩ := hiso u (by simp)
    by_cases hcond : u ∉ p.inputs ∧ u ∉ p.outputs
    · obtain ⟨p1, e1, h1, o1, n1, ad1, s1, i1, out1, nm1, q1⟩ := removeNode_ok h ho hu hcond.1 hcond.2
      have hadj : p1.adj = p.adj := by
        rw [ad1]
        funext x y
        by_cases hx : x = u
        · subst hx; simp [hux]
        · by_cases hy : y = u
          · subst hy; rw [h.simple.symm]; simp [hux]
          · simp [hx, hy]
      obtain ⟨p2, k2, e2, h2, o2, sim2, k2le, s2, ad2, i2, out2, l2, q2, r2⟩ := ih hl.2 p1 (k + 1) h1 o1 (by
        intro n hn
        rw [hadj, n1]
        have hne : n ≠ u := by rintro rfl; exact hl.1 hn
        exact ⟨(h.simple.nodup.mem_erase_iff).2 ⟨hne, (hiso n (by simp [hn])).1⟩, (hiso n (by simp [hn])).2⟩)
      refine ⟨p2, k2, ?_, h2, o2, ⟨?_, ?_⟩, by omega, s2.trans s1, ad2.trans hadj, i2.trans i1, out2.trans out1,
        l2.trans (by rw [n1]; exact List.erase_sublist), ?_, ?_⟩
      · rw [List.foldlM_cons]
        simp only [hcond, and_self, not_false_eq_true, if_true, bind, Except.bind, e1, pure, Except.pure]
        exact e2
      · intro w hw'
        apply sim2.1
        rw [nm1]
        simp only [hw', ite_self]
      · intro r hr
        obtain ⟨c, e⟩ := removeIso_sim hw h ho hu hcond.1 hcond.2 hux n1 ad1 s1 r
        obtain ⟨d, -, e'⟩ := sim2.2 r hr
        refine ⟨c * d, fun he => by omega, fun ψ hψ => ?_⟩
        rw [e ψ hψ, ren_smul, e' ψ hψ, smul_smul]
      · intro a
        refine (q2 a).trans ?_
        rw [q1 a]
        exact Finset.erase_subset _ _
      · intro n hn hnp
        rcases List.mem_cons.1 hn with rfl | hn
        · exfalso
          have := l2.subset hnp
          rw [n1] at this
          exact (h.simple.nodup.mem_erase_iff.1 this).1 rfl
        · rw [← i1, ← out1]; exact r2 n hn hnp
    · obtain ⟨p2, k2, e2, h2, o2, sim2, k2le, s2, ad2, i2, out2, l2, q2, r2⟩ := ih hl.2 p k h ho
        (fun n hn => hiso n (by simp [hn]))
      refine ⟨p2, k2, ?_, h2, o2, sim2, k2le, s2, ad2, i2, out2, l2, q2, ?_⟩
      · rw [List.foldlM_cons]
        simp only [hcond, if_false, bind, Except.bind, pure, Except.pure]
        exact e2
      · intro n hn hnp
        rcases List.mem_cons.1 hn with rfl | hn
        · by_cases h1 : n ∈ p.inputs
          · exact .inl h1
          · right
            by_contra h2
            exact hcond ⟨h1, h2⟩
        · exact r2 n hn hnp

theorem removeIsolated_ok {sp : StdPattern} {cut : PauliCut} {p : Rpm} {π : Equiv.Perm ℕ} (hw : sp.WF) (h : RInv sp cut p π)
    (ho : OutsOk sp p π) (he : LoopEnd p π) :
    ∃ p' k, p.removeIsolated = .ok (p', k) ∧ RInv sp cut p' π ∧ OutsOk sp p' π ∧ SimW sp p π p' π (k = 0) ∧
      FinalOk sp p' π ∧ p'.nodes.Sublist p.nodes := by
  have hiso : ∀ n, n ∈ p.nodes.filter (fun n => (p.nbrs n).isEmpty) ↔ n ∈ p.nodes ∧ ∀ x, p.adj n x = false := by
    intro n
    rw [List.mem_filter, List.isEmpty_iff, List.eq_nil_iff_forall_not_mem]
    refine and_congr_right fun _ => forall_congr' fun x => ?_
    rw [h.mem_nbrs]; simp
  obtain ⟨p', k, e, h', o', s', -, sp', ad', i', out', l', q', r'⟩ := isolated_fold hw (p.nodes.filter fun n => (p.nbrs n).isEmpty)
    (h.simple.nodup.filter _) p 0 h ho (fun n hn => (hiso n).1 hn)
  have hX : ∀ n ∈ p'.nodes, n ∉ p'.inputs → ∀ m, (p'.specs n).pauli = some m → m.axis = .X := by
    intro n hn hni m hm
    have hin : π n ∈ p.pauli m.axis := q' _ ((h'.pauliSet _ _).2 ⟨n, hn, rfl, hni, m, hm, rfl⟩)
    cases hax : m.axis with
    | X => rfl
    | Y => rw [hax, he.noY] at hin; cases hin
    | Z => rw [hax, he.noZ] at hin; cases hin
  refine ⟨p', k, e, h', o', s', ⟨hX, ?_, ?_⟩, l'⟩
  · intro n hn hni hsm k' hk
    obtain ⟨m, hm⟩ := Option.isSome_iff_exists.1 hsm
    have hin : π n ∈ p.pauli .X := q' _ ((h'.pauliSet _ _).2 ⟨n, hn, rfl, hni, m, hm, hX n hn hni m hm⟩)
    rw [i']
    rw [ad'] at hk
    exact he.onlyInputs n (l'.subset hn) hin k' hk
  · intro n hn hni hno
    by_contra hc
    push Not at hc
    have hfx : ∀ x, p.adj n x = false := by
      intro x
      have := hc x
      rw [ad'] at this
      simpa using this
    rcases r' n ((hiso n).2 ⟨l'.subset hn, hfx⟩) hn with h1 | h1
    · rw [i'] at hni; exact hni h1
    · rw [out'] at hno; exact hno h1

end Graphix
