import Verif.Proofs.RemovePauliIso
import Verif.Props.PauliPushing

/-! The initial state of the removal of Pauli measurements. -/

namespace Graphix

open Function

/-- The Pauli measurement of node `w` in a list. -/
def pauliOfL (l : List MCmd) (w : ℕ) : Option PauliMeasurement :=
  match l.find? (fun m => m.node = w) with
  | some ⟨_, .pauli m, _, _⟩ => some m
  | _ => none

theorem pauliOfL_cons (n : ℕ) (pm : PauliMeasurement) (s t : Finset ℕ) (l : List MCmd) (w : ℕ) :
    pauliOfL (⟨n, .pauli pm, s, t⟩ :: l) w = if n = w then some pm else pauliOfL l w := by
  unfold pauliOfL
  rw [List.find?_cons]
  by_cases h : n = w <;> simp [h]

theorem pauliOfL_none {l : List MCmd} {w : ℕ} (h : w ∉ l.map MCmd.node) : pauliOfL l w = none := by
  unfold pauliOfL
  have : l.find? (fun m => m.node = w) = none := by
    rw [List.find?_eq_none]
    intro m hm
    simp only [decide_eq_true_eq]
    rintro rfl
    exact h (List.mem_map_of_mem hm)
  rw [this]

theorem register_fold (l : List MCmd) : ∀ (p : Rpm), (l.map MCmd.node).Nodup →
    (∀ m ∈ l, (∃ pm, m.measurement = .pauli pm) ∧ m.node ∈ p.nodes) → (∀ m ∈ l, ∀ a, m.node ∉ p.pauli a) →
    ∃ p', l.foldlM Rpm.registerPauli p = .ok p' ∧ p'.nodes = p.nodes ∧ p'.adj = p.adj ∧ p'.inputs = p.inputs ∧
      p'.outputs = p.outputs ∧ p'.nodeMap = p.nodeMap ∧
      (∀ n, p'.specs n = { p.specs n with pauli := (pauliOfL l n).or (p.specs n).pauli }) ∧
      ∀ a w, w ∈ p'.pauli a ↔ w ∈ p.pauli a ∨ (w ∉ p.inputs ∧ ∃ m, pauliOfL l w = some m ∧ m.axis = a) := by
  induction l with
  | nil =>
    intro p _ _ _
    exact ⟨p, rfl, rfl, rfl, rfl, rfl, rfl, fun n => by simp [pauliOfL], fun a w => by simp [pauliOfL]⟩
  | cons m l ih =>
    intro p hnd hp hq
    obtain ⟨n, meas, s, t⟩ := m
    obtain ⟨⟨pm, hpm⟩, hmem⟩ := hp _ List.mem_cons_self
    simp only at hpm hmem
    subst hpm
    rw [List.map_cons, List.nodup_cons] at hnd
    have hreg : Rpm.registerPauli p ⟨n, .pauli pm, s, t⟩ = .ok (if n ∉ p.inputs then
        (p.setSpec n { p.specs n with pauli := some pm }).setPauli pm.axis (insert n (p.pauli pm.axis))
        else p.setSpec n { p.specs n with pauli := some pm }) := by
      unfold Rpm.registerPauli
      simp only [hmem, not_true_eq_false, if_false]
      rfl
    set p1 := (if n ∉ p.inputs then
        (p.setSpec n { p.specs n with pauli := some pm }).setPauli pm.axis (insert n (p.pauli pm.axis))
        else p.setSpec n { p.specs n with pauli := some pm }) with hp1
    have e : p1.nodes = p.nodes ∧ p1.adj = p.adj ∧ p1.inputs = p.inputs ∧ p1.outputs = p.outputs ∧ p1.nodeMap = p.nodeMap ∧
        (∀ i, p1.specs i = if i = n then { p.specs n with pauli := some pm } else p.specs i) := by
      rw [hp1]; split_ifs <;> exact ⟨rfl, rfl, rfl, rfl, rfl, fun _ => rfl⟩
    have eq : ∀ a w, w ∈ p1.pauli a ↔ w ∈ p.pauli a ∨ (w = n ∧ n ∉ p.inputs ∧ a = pm.axis) := by
      intro a w
      rw [hp1]
      by_cases hi : n ∉ p.inputs
      · rw [if_pos hi]
        simp only [Rpm.setPauli, Rpm.setSpec]
        by_cases ha : a = pm.axis
        · subst ha
          rw [if_pos rfl, Finset.mem_insert]
          constructor
          · rintro (h | h)
            · exact .inr ⟨h, hi, rfl⟩
            · exact .inl h
          · rintro (h | h)
            · exact .inr h
            · exact .inl h.1
        · rw [if_neg ha]
          exact ⟨.inl, fun h => h.resolve_right fun h => ha h.2.2⟩
      · rw [if_neg hi]
        exact ⟨.inl, fun h => h.resolve_right fun h => hi h.2.1⟩
    obtain ⟨e1, e2, e3, e4, e5, e6⟩ := e
    obtain ⟨p2, f0, f1, f2, f3, f4, f5, f6, f7⟩ := ih p1 hnd.2 (fun m hm => by
      rw [e1]; exact hp m (List.mem_cons_of_mem _ hm)) (fun m hm a ha => by
      rcases (eq a m.node).1 ha with h | ⟨h, -⟩
      · exact hq m (List.mem_cons_of_mem _ hm) a h
      · have := List.mem_map_of_mem (f := MCmd.node) hm
        rw [h] at this
        exact hnd.1 this)
    refine ⟨p2, ?_, f1.trans e1, f2.trans e2, f3.trans e3, f4.trans e4, f5.trans e5, fun i => ?_, fun a w => ?_⟩
    · rw [List.foldlM_cons, hreg]; exact f0
    · rw [f6, e6, pauliOfL_cons]
      by_cases h : i = n
      · subst h
        rw [pauliOfL_none hnd.1]
        simp
      · simp [h, Ne.symm h]
    · rw [f7, eq, e3, pauliOfL_cons]
      by_cases h : w = n
      · subst h
        rw [pauliOfL_none hnd.1]
        simp only [true_and, if_true, Option.some.injEq, exists_eq_left', reduceCtorEq, false_and, exists_false, and_false, or_false]
        constructor
        · rintro (h | h)
          · exact .inl h
          · exact .inr ⟨h.1, h.2.symm⟩
        · rintro (h | h)
          · exact .inl h
          · exact .inr ⟨h.1, h.2.symm⟩
      · simp [h, Ne.symm h]

theorem dedup_rev {l : List ℕ} (h : l.Nodup) : l.reverse.dedup.reverse = l := by
  rw [List.Nodup.dedup (List.nodup_reverse.2 h), List.reverse_reverse]

/-- The state that `remove_pauli_measurements` starts from. -/
theorem rpm_init_ok (sp0 : StdPattern) (hw0 : sp0.WF) (leave : Finset ℕ) :
    ∃ p, Rpm.init (PauliCut.ofStd leave sp0) sp0 = .ok p ∧
      CutOk (sp0.performPauliPushing leave) (PauliCut.ofStd leave sp0) ∧
      RInv (sp0.performPauliPushing leave) (PauliCut.ofStd leave sp0) p (Equiv.refl ℕ) ∧
      OutsOk (sp0.performPauliPushing leave) p (Equiv.refl ℕ) ∧ p.nodes = sp0.nodeList ∧ p.adj = adjOf sp0.eSet ∧
      ∀ r, ∀ n ∈ p.nodes, (sp0.performPauliPushing leave).specOp r (p.specs n) = (sp0.performPauliPushing leave).nodeOp r n := by
  have hw := (C15_pauli_pushing sp0 hw0 leave).1
  have hi := cutInv leave sp0.mList hw0.mo hw0.m_nodup
  change CutInv leave sp0.mList (PauliCut.ofStd leave sp0) at hi
  set cut := PauliCut.ofStd leave sp0 with hcut
  set sp := sp0.performPauliPushing leave with hsp
  have hl : sp.mList = cut.pauli ++ cut.nonPauli := rfl
  have hcutok : CutOk sp cut := ⟨hw, hl, fun m hm => ⟨(hi.pauliShape m hm).1, (hi.pauliShape m hm).2.2⟩⟩
  have hnl : sp.nodeList = sp0.nodeList := rfl
  have hmn : ∀ m ∈ cut.pauli, m.node ∈ sp.measNodes := fun m hm => by
    unfold StdPattern.measNodes; rw [hl]; exact List.mem_map_of_mem (List.mem_append_left _ hm)
  set p0 : Rpm :=
    { nodes := sp0.nodeList
      adj := fun x y => decide (s(x, y) ∈ sp0.eSet)
      specs := fun n =>
        { src := n
          domains := ⟨expandDomain cut.shifted ((sp0.xDict.get? n).getD ∅), expandDomain cut.shifted ((sp0.zDict.get? n).getD ∅)⟩
          clifford := (sp0.cDict.get? n).getD Clifford.I
          pauli := none }
      pauli := fun _ => ∅
      inputs := sp0.inputs.toFinset
      outputs := sp0.outputs.toFinset
      nodeMap := fun n => if n ∈ sp0.nodeList then some n else none } with hp0
  have hmnd : (cut.pauli.map MCmd.node).Nodup := by
    have := hw.m_nodup
    unfold StdPattern.measNodes at this
    rw [hl, List.map_append] at this
    exact (List.nodup_append.1 this).1
  obtain ⟨p, f0, f1, f2, f3, f4, f5, f6, f7⟩ := register_fold cut.pauli p0 hmnd
    (fun m hm => ⟨(hi.pauliShape m hm).1, by rw [hp0]; exact hw.m_sub _ (hmn m hm)⟩) (fun m _ a h => by cases h)
  have hinit : Rpm.init cut sp0 = .ok p := by
    have hd : (sp0.inputs ++ sp0.nList.map Prod.fst).reverse.dedup.reverse = sp0.nodeList := dedup_rev hw0.nodes_nodup
    unfold Rpm.init
    simp only [hd, bind, Except.bind]
    rw [if_neg]
    · exact f0
    · rw [not_not]
      intro k hk
      have hk' : k ∈ sp0.outputs := by
        simp only [List.mem_append] at hk
        rcases hk with (h | h) | h
        · exact hw0.lx k h
        · exact hw0.lz k h
        · exact hw0.lc k h
      exact ((hw0.out k).1 hk').1
  have hdx : ∀ n, expandDomain cut.shifted ((PyDict.get? sp0.xDict n).getD ∅) = domAt sp.xDict n := fun n =>
    (domAt_expandCorrections cut.shifted sp0.xDict n).symm
  have hdz : ∀ n, expandDomain cut.shifted ((PyDict.get? sp0.zDict n).getD ∅) = domAt sp.zDict n := fun n =>
    (domAt_expandCorrections cut.shifted sp0.zDict n).symm
  have hspec : ∀ n, p.specs n = ⟨n, ⟨domAt sp.xDict n, domAt sp.zDict n⟩, cliffAt sp.cDict n, cut.pauliOf n⟩ := by
    intro n
    rw [f6 n]
    simp only [hp0, hdx, hdz, Option.or_none]
    rfl
  have hnone : ∀ n ∈ sp.measNodes, domAt sp.xDict n = ∅ ∧ domAt sp.zDict n = ∅ ∧ cliffAt sp.cDict n = Clifford.I := by
    intro n hn
    have hno : n ∉ sp.outputs := fun h => ((hw.out _).1 h).2 hn
    refine ⟨domAt_empty fun h => hno (hw.lx _ h), domAt_empty fun h => hno (hw.lz _ h), ?_⟩
    unfold cliffAt
    have : PyDict.get? sp.cDict n = none := (PyDict.get?_eq_none_iff _ _).2 fun h => hno (hw.lc _ h)
    rw [this]; rfl
  refine ⟨p, hinit, hcutok, ⟨?_, ?_, ?_, fun _ _ => rfl, f3, ?_, ?_, ?_, ?_, ?_, ?_⟩, ⟨?_, ?_⟩, f1, f2, ?_⟩
  · rw [f1, f2]; exact hw0.simple (List.Perm.refl _)
  · intro n _; rw [hspec]; rfl
  · intro w; rw [f5, f1]; rfl
  · intro i h
    rw [f3] at h; rw [f1]
    exact List.mem_append_left _ (List.mem_toFinset.1 h)
  · intro n hn; rw [f1] at hn; exact hn
  · intro n _
    rw [hspec]
    change cut.pauliOf n = (cut.pauliOf n).map _
    cases hc : cut.pauliOf n with
    | none => rfl
    | some m => simp only [Option.map_some, (hnone n (hcutok.meas hc)).2.2, PauliMeasurement.clifford_I]
  · intro a w
    rw [f7]
    simp only [f1, f3]
    change w ∈ (∅ : Finset ℕ) ∨ _ ↔ _
    simp only [Finset.notMem_empty, false_or]
    constructor
    · rintro ⟨h1, m, h2, h3⟩
      refine ⟨w, hw.m_sub _ (hcutok.meas h2), rfl, h1, m, ?_, h3⟩
      rw [hspec]; exact h2
    · rintro ⟨n, h1, rfl, h3, m, h4, h5⟩
      rw [hspec] at h4
      exact ⟨h3, m, h4, h5⟩
  · intro n _ k hk
    rw [hspec] at hk
    rcases Finset.mem_union.1 hk with h | h
    · exact hw.dx n k h
    · exact hw.dz n k h
  · intro n _ hm
    rw [hspec]
    change domAt sp.xDict n ∪ domAt sp.zDict n = ∅
    rw [(hnone n hm).1, (hnone n hm).2.1]; rfl
  · intro n; rw [f4]; exact List.mem_toFinset
  · intro n hn
    rw [f4] at hn; rw [f1]
    exact ((hw0.out n).1 (List.mem_toFinset.1 hn)).1
  · intro r n _
    rw [hspec]
    unfold StdPattern.specOp StdPattern.baseOp
    simp only
    by_cases hm : n ∈ sp.measNodes
    · rw [if_pos hm, (hnone n hm).1, (hnone n hm).2.1, (hnone n hm).2.2, Clifford.matrix_I]
      simp [parity_empty, powB]
    · rw [if_neg hm, hw.nodeOp_out r hm, Matrix.one_mul]

end Graphix
