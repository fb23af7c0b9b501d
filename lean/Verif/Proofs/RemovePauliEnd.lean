import Verif.Proofs.RemovePauliInit

/-! The pattern returned by the removal of Pauli measurements. -/

namespace Graphix

open Function

theorem mapM_ok {α β : Type} {f : α → Except PyErr β} {g : α → β} {l : List α} (h : ∀ x ∈ l, f x = .ok (g x)) :
    l.mapM f = .ok (l.map g) := by
  induction l with
  | nil => rfl
  | cons a l ih =>
    rw [List.mapM_cons, h a (by simp), ih fun x hx => h x (by simp [hx])]
    rfl

/-- The branch of the pushed pattern that corresponds to branch `r'` of the result. -/
def backBranch (nodeMap : ℕ → Option ℕ) (r' : ℕ → Bool) (w : ℕ) : Bool :=
  match nodeMap w with
  | some n => r' n
  | none => false

theorem parity_mapDomain {nodeMap : ℕ → Option ℕ} (hinj : ∀ w w' n, nodeMap w = some n → nodeMap w' = some n → w = w') (r' : ℕ → Bool)
    (D : Finset ℕ) : parity r' (mapDomain nodeMap D) = parity (backBranch nodeMap r') D := by
  unfold parity mapDomain
  congr 2
  rw [Finset.filter_image, Finset.card_image_of_injOn]
  · congr 1
    ext w
    rw [Finset.mem_filter, Finset.mem_filter, Finset.mem_filter]
    unfold backBranch
    cases h : nodeMap w <;> simp
  · intro a ha b hb e
    simp only [Finset.coe_filter, Finset.mem_filter, Set.mem_setOf_eq] at ha hb
    obtain ⟨x, hx⟩ := Option.isSome_iff_exists.1 ha.1.2
    obtain ⟨y, hy⟩ := Option.isSome_iff_exists.1 hb.1.2
    simp only [hx, hy, Option.getD_some] at e
    subst e
    exact hinj a b _ hx hy

theorem get?_filterMap {α : Type} {l : List ℕ} (hl : l.Nodup) (f : ℕ → Option α) (n : ℕ) :
    PyDict.get? (l.filterMap fun n => (f n).map fun a => (n, a)) n = if n ∈ l then f n else none := by
  induction l with
  | nil => rfl
  | cons a l ih =>
    rw [List.nodup_cons] at hl
    by_cases h : a = n
    · subst h
      have hih := ih hl.2
      rw [if_neg hl.1] at hih
      cases hf : f a with
      | none => simp [List.filterMap_cons, hf, hih]
      | some v => simp [List.filterMap_cons, hf, PyDict.get?_cons]
    · have hih := ih hl.2
      cases hf : f a with
      | none => simp [List.filterMap_cons, hf, hih, Ne.symm h]
      | some v => simp [List.filterMap_cons, hf, PyDict.get?_cons, hih, h, Ne.symm h]

theorem keys_filterMap {α : Type} (l : List ℕ) (f : ℕ → Option α) :
    (PyDict.keys (l.filterMap fun n => (f n).map fun a => (n, a))).Sublist l := by
  induction l with
  | nil => exact List.Sublist.refl _
  | cons a l ih =>
    rw [List.filterMap_cons]
    cases hf : f a with
    | none => simp only [Option.map_none]; exact ih.cons _
    | some v => simp only [Option.map_some, PyDict.keys, List.map_cons]; exact ih.cons₂ _

theorem RInv.nodeMap_iff {sp : StdPattern} {cut : PauliCut} {p : Rpm} {π : Equiv.Perm ℕ} (h : RInv sp cut p π) (w n : ℕ) :
    p.nodeMap w = some n ↔ n ∈ p.nodes ∧ π n = w := by
  rw [h.map]
  constructor
  · intro e
    split_ifs at e with hm
    cases e
    exact ⟨hm, by simp⟩
  · rintro ⟨hm, rfl⟩
    simp [hm]

theorem mapDomain_mem {nodeMap : ℕ → Option ℕ} {D : Finset ℕ} {n : ℕ} :
    n ∈ mapDomain nodeMap D ↔ ∃ w ∈ D, nodeMap w = some n := by
  unfold mapDomain
  simp only [Finset.mem_image, Finset.mem_filter]
  constructor
  · rintro ⟨w, ⟨hw, hs⟩, rfl⟩
    obtain ⟨x, hx⟩ := Option.isSome_iff_exists.1 hs
    exact ⟨w, hw, by simp [hx]⟩
  · rintro ⟨w, hw, e⟩
    exact ⟨w, ⟨hw, by simp [e]⟩, by simp [e]⟩

/-- The new measurement command. -/
noncomputable def Rpm.newM (p : Rpm) (m : MCmd) : Option MCmd :=
  (p.nodeMap m.node).map fun node =>
    ⟨node, m.measurement.clifford (p.specs node).clifford,
      mapDomain p.nodeMap (((p.specs node).clifford.commuteDomains? ⟨m.sDomain, m.tDomain⟩).getD ⟨∅, ∅⟩).s,
      mapDomain p.nodeMap (((p.specs node).clifford.commuteDomains? ⟨m.sDomain, m.tDomain⟩).getD ⟨∅, ∅⟩).t⟩

theorem createNewM_eq (p : Rpm) (m : MCmd) : p.createNewM m = .ok (p.newM m) := by
  unfold Rpm.createNewM Rpm.newM
  cases hm : p.nodeMap m.node with
  | none => rfl
  | some node =>
    obtain ⟨d, hd, -⟩ := C04_commute_domains (p.specs node).clifford ⟨m.sDomain, m.tDomain⟩
    simp only [MCmd.clifford?, hd, Option.map_some, Option.getD_some]
    rfl

theorem mOrdered_filterMap {l : List MCmd} (ho : MOrdered l) {p : Rpm} : MOrdered (l.filterMap p.newM) := by
  intro a m c e
  obtain ⟨l1, l2, rfl, h1, h2⟩ := List.filterMap_eq_append_iff.1 e
  obtain ⟨l3, x, l4, rfl, hnone, hx, -⟩ := List.filterMap_eq_cons_iff.1 h2
  obtain ⟨hs, ht⟩ := ho (l1 ++ l3) x l4 (by simp)
  unfold Rpm.newM at hx
  obtain ⟨node, hn, rfl⟩ := Option.map_eq_some_iff.1 hx
  obtain ⟨d, hd, -⟩ := C04_commute_domains (p.specs node).clifford ⟨x.sDomain, x.tDomain⟩
  have hsub := rpmDomains_sub hd
  have key : ∀ k ∈ d.s ∪ d.t, ∀ n, p.nodeMap k = some n → n ∈ a.map MCmd.node := by
    intro k hk n hkn
    have hk' : k ∈ (l1 ++ l3).map MCmd.node := by
      rcases Finset.mem_union.1 (hsub hk) with h | h
      · exact hs k h
      · exact ht k h
    obtain ⟨y, hy, rfl⟩ := List.mem_map.1 hk'
    have hyn : ∃ z, p.newM y = some z ∧ z.node = n := by
      unfold Rpm.newM; rw [hkn]; exact ⟨_, rfl, rfl⟩
    obtain ⟨z, hz, rfl⟩ := hyn
    rcases List.mem_append.1 hy with h | h
    · rw [← h1]; exact List.mem_map_of_mem (List.mem_filterMap.2 ⟨y, h, hz⟩)
    · rw [hnone y h] at hz; cases hz
  simp only [hd, Option.getD_some]
  constructor
  · intro n hn'
    obtain ⟨k, hk, hkn⟩ := mapDomain_mem.1 hn'
    exact key k (Finset.mem_union_left _ hk) n hkn
  · intro n hn'
    obtain ⟨k, hk, hkn⟩ := mapDomain_mem.1 hn'
    exact key k (Finset.mem_union_right _ hk) n hkn

theorem newM_nodes (p : Rpm) (l : List MCmd) : (l.filterMap p.newM).map MCmd.node = (l.map MCmd.node).filterMap p.nodeMap := by
  rw [List.map_filterMap, List.filterMap_map]
  congr 1
  funext m
  unfold Rpm.newM
  simp [Function.comp_def]

/-- The result of `to_standardizedpattern`. -/
noncomputable def Rpm.result (p : Rpm) (π : Equiv.Perm ℕ) (sp : StdPattern) : StdPattern :=
  { inputs := sp.inputs
    outputs := sp.outputs.map π.symm
    nList := sp.nList.filter fun n => n.1 ∈ p.nodes
    eSet := ((edgesOf p.adj p.nodes).map fun e => s(e.1, e.2)).toFinset
    mList := sp.mList.filterMap p.newM
    zDict := (sp.outputs.map π.symm).filterMap fun n =>
      (if mapDomain p.nodeMap (p.specs n).domains.t ≠ ∅ then some (mapDomain p.nodeMap (p.specs n).domains.t) else none).map fun a => (n, a)
    xDict := (sp.outputs.map π.symm).filterMap fun n =>
      (if mapDomain p.nodeMap (p.specs n).domains.s ≠ ∅ then some (mapDomain p.nodeMap (p.specs n).domains.s) else none).map fun a => (n, a)
    cDict := (sp.outputs.map π.symm).filterMap fun n =>
      (if (p.specs n).clifford ≠ Clifford.I then some (p.specs n).clifford else none).map fun a => (n, a) }

theorem toStd_eq {sp0 sp : StdPattern} {cut : PauliCut} {p : Rpm} {π : Equiv.Perm ℕ} (h : RInv sp cut p π) (ho : OutsOk sp p π)
    (hl : sp.mList = cut.pauli ++ cut.nonPauli) (h1 : sp.inputs = sp0.inputs) (h2 : sp.outputs = sp0.outputs)
    (h3 : sp.nList = sp0.nList) : p.toStd cut sp0 = .ok (p.result π sp) := by
  have hms : (cut.pauli ++ cut.nonPauli).mapM p.createNewM = .ok ((cut.pauli ++ cut.nonPauli).map p.newM) :=
    mapM_ok fun m _ => createNewM_eq p m
  unfold Rpm.toStd
  rw [mapM_ok (l := sp0.outputs) (g := fun n => π.symm n), hms]
  · simp only [bind, Except.bind]
    unfold Rpm.result
    rw [h1, h2, h3, hl]
    simp only [pure, Except.pure, List.filterMap_map]
    have e : ∀ {α : Type} (c : ℕ → Prop) [DecidablePred c] (g : ℕ → α),
        (fun n => if c n then some (n, g n) else none) = fun n => (if c n then some (g n) else none).map fun a => (n, a) := by
      intro α c _ g
      funext n
      split_ifs <;> rfl
    rw [e, e, e]
    rfl
  · intro n hn
    have hm : π.symm n ∈ p.nodes := by
      apply ho.2
      rw [ho.1, h2]; simpa using hn
    rw [(h.nodeMap_iff n (π.symm n)).2 ⟨hm, by simp⟩]

theorem result_nodeList {sp : StdPattern} {cut : PauliCut} {p : Rpm} {π : Equiv.Perm ℕ} (h : RInv sp cut p π) (n : ℕ) :
    n ∈ (p.result π sp).nodeList ↔ n ∈ p.nodes := by
  unfold StdPattern.nodeList Rpm.result
  simp only [List.mem_append, List.mem_map, List.mem_filter, decide_eq_true_eq]
  constructor
  · rintro (h' | ⟨a, ⟨h1, h2⟩, rfl⟩)
    · exact h.inpMem n (by rw [h.inputs]; exact List.mem_toFinset.2 h')
    · exact h2
  · intro hn
    rcases List.mem_append.1 (h.mem n hn) with h' | h'
    · exact .inl h'
    · obtain ⟨a, h1, rfl⟩ := List.mem_map.1 h'
      exact .inr ⟨a, ⟨h1, hn⟩, rfl⟩

theorem result_measNodes {sp : StdPattern} {cut : PauliCut} {p : Rpm} {π : Equiv.Perm ℕ} (h : RInv sp cut p π) (n : ℕ) :
    n ∈ (p.result π sp).measNodes ↔ n ∈ p.nodes ∧ π n ∈ sp.measNodes := by
  have e : (p.result π sp).measNodes = sp.measNodes.filterMap p.nodeMap := newM_nodes p sp.mList
  rw [e, List.mem_filterMap]
  constructor
  · rintro ⟨w, h1, h2⟩
    obtain ⟨h3, rfl⟩ := (h.nodeMap_iff w n).1 h2
    exact ⟨h3, h1⟩
  · rintro ⟨h1, h2⟩
    exact ⟨π n, h2, (h.nodeMap_iff _ n).2 ⟨h1, rfl⟩⟩

theorem result_nodup {sp : StdPattern} (hw : sp.WF) (p : Rpm) (π : Equiv.Perm ℕ) : (p.result π sp).nodeList.Nodup :=
  hw.nodes_nodup.sublist (List.Sublist.append_left (List.filter_sublist.map _) _)

theorem result_outputs {sp : StdPattern} {cut : PauliCut} {p : Rpm} {π : Equiv.Perm ℕ} (hw : sp.WF) (h : RInv sp cut p π)
    (ho : OutsOk sp p π) (n : ℕ) : n ∈ (p.result π sp).outputs ↔ n ∈ p.nodes ∧ π n ∉ sp.measNodes := by
  have e : n ∈ (p.result π sp).outputs ↔ π n ∈ sp.outputs := by
    unfold Rpm.result
    simp only [List.mem_map]
    constructor
    · rintro ⟨w, h1, rfl⟩; simpa using h1
    · intro h'; exact ⟨π n, h', by simp⟩
  rw [e]
  constructor
  · intro h'
    exact ⟨ho.2 n ((ho.1 n).2 h'), ((hw.out _).1 h').2⟩
  · rintro ⟨h1, h2⟩
    exact (hw.out _).2 ⟨h.orig_mem h1, h2⟩

theorem getD_ite {α : Type} [DecidableEq α] (a e : α) : (if a ≠ e then some a else none).getD e = a := by
  by_cases h : a = e <;> simp [h]

theorem result_dicts {sp : StdPattern} {cut : PauliCut} {p : Rpm} {π : Equiv.Perm ℕ} (hw : sp.WF) (h : RInv sp cut p π)
    (ho : OutsOk sp p π) (n : ℕ) :
    domAt (p.result π sp).xDict n = (if n ∈ p.nodes ∧ π n ∉ sp.measNodes then mapDomain p.nodeMap (p.specs n).domains.s else ∅) ∧
    domAt (p.result π sp).zDict n = (if n ∈ p.nodes ∧ π n ∉ sp.measNodes then mapDomain p.nodeMap (p.specs n).domains.t else ∅) ∧
    cliffAt (p.result π sp).cDict n = (if n ∈ p.nodes ∧ π n ∉ sp.measNodes then (p.specs n).clifford else Clifford.I) := by
  have hnd : (sp.outputs.map π.symm).Nodup := hw.out_nodup.map π.symm.injective
  have hm := result_outputs hw h ho n
  change n ∈ sp.outputs.map π.symm ↔ _ at hm
  refine ⟨?_, ?_, ?_⟩
  · unfold domAt Rpm.result
    simp only
    rw [get?_filterMap hnd]
    simp only [hm]
    split_ifs with h1 h2
    · rfl
    · push Not at h2; simp [h2]
    · rfl
  · unfold domAt Rpm.result
    simp only
    rw [get?_filterMap hnd]
    simp only [hm]
    split_ifs with h1 h2
    · rfl
    · push Not at h2; simp [h2]
    · rfl
  · unfold cliffAt Rpm.result
    simp only
    rw [get?_filterMap hnd]
    simp only [hm]
    split_ifs with h1 h2
    · rfl
    · push Not at h2; simp [h2]
    · rfl

theorem result_wf {sp : StdPattern} {cut : PauliCut} {p : Rpm} {π : Equiv.Perm ℕ} (hw : sp.WF) (h : RInv sp cut p π)
    (ho : OutsOk sp p π) : (p.result π sp).WF := by
  have hedge : ∀ e ∈ (p.result π sp).eSet, ∃ x y, e = s(x, y) ∧ p.adj x y = true := by
    intro e he
    unfold Rpm.result at he
    simp only [List.mem_toFinset, List.mem_map] at he
    obtain ⟨a, ha, rfl⟩ := he
    exact ⟨a.1, a.2, rfl, (mem_edgesOf ha).2.2⟩
  have hnd : (sp.outputs.map π.symm).Nodup := hw.out_nodup.map π.symm.injective
  have hdom : ∀ n k, n ∈ p.nodes → ∀ D ⊆ (p.specs n).domains.s ∪ (p.specs n).domains.t, k ∈ mapDomain p.nodeMap D →
      k ∈ (p.result π sp).measNodes := by
    intro n k hn D hD hk
    obtain ⟨w, h1, h2⟩ := mapDomain_mem.1 hk
    obtain ⟨h3, rfl⟩ := (h.nodeMap_iff w k).1 h2
    exact (result_measNodes h k).2 ⟨h3, h.dom n hn _ (hD h1)⟩
  refine ⟨result_nodup hw p π, ?_, ?_, ?_, ?_, mOrdered_filterMap hw.mo, hnd, ?_, ?_, ?_, ?_, ?_, ?_, ?_, ?_, ?_⟩
  · intro e he k hk
    obtain ⟨x, y, rfl, hxy⟩ := hedge e he
    rw [result_nodeList h]
    rcases Sym2.mem_iff.1 hk with rfl | rfl
    · exact h.simple.mem _ _ hxy
    · exact h.simple.mem _ _ (by rw [h.simple.symm]; exact hxy)
  · intro e he hd
    obtain ⟨x, y, rfl, hxy⟩ := hedge e he
    rw [Sym2.mk_isDiag_iff] at hd
    subst hd
    rw [h.simple.irrefl] at hxy; cases hxy
  · change ((sp.mList.filterMap p.newM).map MCmd.node).Nodup
    rw [newM_nodes]
    refine List.Nodup.filterMap ?_ hw.m_nodup
    intro a b c ha hb
    obtain ⟨-, h1⟩ := (h.nodeMap_iff a c).1 ha
    obtain ⟨-, h2⟩ := (h.nodeMap_iff b c).1 hb
    rw [← h1, ← h2]
  · intro n hn
    rw [result_nodeList h]
    exact ((result_measNodes h n).1 hn).1
  · intro n
    rw [result_outputs hw h ho, result_nodeList h, result_measNodes h]
    constructor
    · rintro ⟨h1, h2⟩; exact ⟨h1, fun h' => h2 h'.2⟩
    · rintro ⟨h1, h2⟩; exact ⟨h1, fun h' => h2 ⟨h1, h'⟩⟩
  · exact hnd.sublist (keys_filterMap _ _)
  · exact hnd.sublist (keys_filterMap _ _)
  · exact hnd.sublist (keys_filterMap _ _)
  · intro k hk; exact (keys_filterMap _ _).subset hk
  · intro k hk; exact (keys_filterMap _ _).subset hk
  · intro k hk; exact (keys_filterMap _ _).subset hk
  · intro k i hi
    rw [(result_dicts hw h ho k).1] at hi
    split_ifs at hi with hc
    · exact hdom k i hc.1 _ Finset.subset_union_left hi
    · cases hi
  · intro k i hi
    rw [(result_dicts hw h ho k).2.1] at hi
    split_ifs at hi with hc
    · exact hdom k i hc.1 _ Finset.subset_union_right hi
    · cases hi

theorem result_nodeOp {sp : StdPattern} {cut : PauliCut} {p : Rpm} {π : Equiv.Perm ℕ} (hw : sp.WF) (h : RInv sp cut p π)
    (ho : OutsOk sp p π) (r' : ℕ → Bool) {n : ℕ} (hn : n ∈ p.nodes) :
    MatPhaseEq (sp.specOp (backBranch p.nodeMap r') (p.specs n)) ((p.result π sp).nodeOp r' n) := by
  have hw' := result_wf hw h ho
  have hinj : ∀ w w' n, p.nodeMap w = some n → p.nodeMap w' = some n → w = w' := by
    intro w w' n h1 h2
    rw [← ((h.nodeMap_iff _ _).1 h1).2, ← ((h.nodeMap_iff _ _).1 h2).2]
  have hmap : p.nodeMap (π n) = some n := (h.nodeMap_iff _ _).2 ⟨hn, rfl⟩
  by_cases hm : π n ∈ sp.measNodes
  · obtain ⟨m, hmm, hmn⟩ := List.mem_map.1 hm
    obtain ⟨d, hd, hd'⟩ := C04_commute_domains (p.specs n).clifford ⟨m.sDomain, m.tDomain⟩
    have hnew : p.newM m = some ⟨n, m.measurement.clifford (p.specs n).clifford, mapDomain p.nodeMap d.s, mapDomain p.nodeMap d.t⟩ := by
      unfold Rpm.newM
      rw [hmn, hmap]
      simp only [Option.map_some, hd, Option.getD_some]
    have hin : (⟨n, m.measurement.clifford (p.specs n).clifford, mapDomain p.nodeMap d.s, mapDomain p.nodeMap d.t⟩ : MCmd) ∈
        (p.result π sp).mList := List.mem_filterMap.2 ⟨m, hmm, hnew⟩
    rw [hw'.nodeOp_meas r' hin]
    simp only [parity_mapDomain hinj]
    have hdm := h.domM n hn hm
    have h1 : (p.specs n).domains.s = ∅ := by
      apply Finset.subset_empty.1; rw [← hdm]; exact Finset.subset_union_left
    have h2 : (p.specs n).domains.t = ∅ := by
      apply Finset.subset_empty.1; rw [← hdm]; exact Finset.subset_union_right
    unfold StdPattern.specOp StdPattern.baseOp
    rw [h.src n hn, if_pos hm, ← hmn, hw.nodeOp_meas _ hmm, hmn, h1, h2]
    have hr : backBranch p.nodeMap r' (π n) = r' n := by unfold backBranch; rw [hmap]
    rw [hr]
    simp only [parity_empty, powB_false, Matrix.mul_one]
    rw [Matrix.mul_assoc]
    refine ((MatPhaseEq.refl _).mul (hd' _)).trans ?_
    rw [← Matrix.mul_assoc]
    exact (bra_clifford _ _ _).mul (MatPhaseEq.refl _)
  · have hm' : n ∉ (p.result π sp).measNodes := fun h' => hm ((result_measNodes h n).1 h').2
    obtain ⟨e1, e2, e3⟩ := result_dicts hw h ho n
    rw [hw'.nodeOp_out r' hm', e1, e2, e3]
    simp only [hn, hm, not_false_eq_true, and_self, if_true, parity_mapDomain hinj]
    unfold StdPattern.specOp StdPattern.baseOp
    rw [h.src n hn, if_neg hm, Matrix.one_mul]
    exact MatPhaseEq.refl _

theorem result_val {sp : StdPattern} {cut : PauliCut} {p : Rpm} {π : Equiv.Perm ℕ} (hw : sp.WF) (h : RInv sp cut p π)
    (ho : OutsOk sp p π) (hplus : ∀ n ∈ sp.nList, n.2 = PlanarState.plus) (edges : List (ℕ × ℕ))
    (hen : StdPattern.Enumerates edges (p.result π sp).eSet) (r' : ℕ → Bool) :
    ∃ c : ℂ, ‖c‖ = 1 ∧ ∀ ψ, semCmds r' ((p.result π sp).cmds edges) ψ =
      ((1 / (Real.sqrt 2 : ℂ)) ^ (p.result π sp).nList.length * c) • p.val sp (backBranch p.nodeMap r') ψ := by
  have hw' := result_wf hw h ho
  have hperm : p.nodes.Perm (p.result π sp).nodeList :=
    (List.perm_ext_iff_of_nodup h.simple.nodup hw'.nodes_nodup).2 fun n => (result_nodeList h n).symm
  obtain ⟨c, hc, e⟩ := locOps_phase (l := p.nodes) fun n hn => (result_nodeOp hw h ho r' hn).symm
  refine ⟨c, hc, fun ψ => ?_⟩
  rw [hw'.closed (fun n hn => hplus n (List.mem_filter.1 hn).1) hperm edges hen r' ψ, e, mul_smul]
  unfold Rpm.val
  congr 3
  apply entangleAll_congr
  intro x hx y hy
  unfold adjOf Rpm.result
  simp only [List.mem_toFinset]
  rw [Bool.eq_iff_iff, decide_eq_true_eq, mem_edgesOf_iff h.simple.symm h.simple.irrefl]
  simp [hx, hy]

end Graphix
