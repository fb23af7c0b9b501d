import Verif.Proofs.FlowCheck

/-! Helper lemmas on the flow checks: the loops. -/

namespace Graphix

open scoped symmDiff

theorem bind_ok_iff {ε α β : Type} (x : Except ε α) (g : α → Except ε β) (b : β) :
    (x >>= g) = .ok b ↔ ∃ a, x = .ok a ∧ g a = .ok b := by
  cases x with
  | error e => simp [bind, Except.bind]
  | ok a => simp [bind, Except.bind]

theorem bindU_ok_iff {ε β : Type} (x : Except ε Unit) (g : Unit → Except ε β) (b : β) :
    (x >>= g) = .ok b ↔ x = .ok () ∧ g () = .ok b := by
  rw [bind_ok_iff]
  constructor
  · rintro ⟨⟨⟩, h⟩; exact h
  · intro h; exact ⟨(), h⟩

theorem guard_ok_iff {ε : Type} (c : Prop) [Decidable c] (e : ε) (b : PUnit) :
    (if c then (throw e : Except ε PUnit) else pure PUnit.unit) = .ok b ↔ ¬ c := by
  by_cases h : c <;> simp [h, throw, throwThe, MonadExceptOf.throw, pure, Except.pure]

theorem guard_bind_ok_iff {ε β : Type} (c : Prop) [Decidable c] (e : ε) (g : Except ε β) (b : β) :
    (if c then (throw e : Except ε β) else g) = .ok b ↔ ¬ c ∧ g = .ok b := by
  by_cases h : c <;> simp [h, throw, throwThe, MonadExceptOf.throw]

namespace OpenGraph

theorem label_ok (og : OpenGraph) (v : ℕ) (l : Label) : og.label v = .ok l ↔ og.HasLabel v l := by
  unfold label HasLabel
  cases og.measurements.get? v with
  | none => simp
  | some m => simp

theorem plane_ok (og : OpenGraph) (v : ℕ) (p : Plane) : og.plane v = .ok p ↔ og.HasLabel v (.plane p) := by
  unfold plane HasLabel
  cases h : og.measurements.get? v with
  | none => simp
  | some m => cases m <;> simp [Measurement.toPlane, Measurement.toPlaneOrAxis]

theorem HasLabel.unique {og : OpenGraph} {v : ℕ} {l l' : Label} (h : og.HasLabel v l) (h' : og.HasLabel v l') :
    l = l' := by
  obtain ⟨m, h1, rfl⟩ := h
  obtain ⟨m', h2, rfl⟩ := h'
  rw [h1] at h2; cases h2; rfl

theorem exists_label {og : OpenGraph} (h : og.postInit = .ok ()) (v : ℕ) :
    (∃ l, og.HasLabel v l) ↔ v ∈ og.nodes ∧ v ∉ og.outputs := by
  obtain ⟨hm, -⟩ := og.postInit_ok h
  have h1 : v ∈ og.measurements.keys.toFinset ↔ v ∈ og.nodes \ og.outputs.toFinset := by rw [hm]
  simp only [List.mem_toFinset, Finset.mem_sdiff] at h1
  rw [← h1, ← PyDict.get?_isSome_iff, Option.isSome_iff_exists]
  constructor
  · rintro ⟨l, m, hm, -⟩; exact ⟨m, hm⟩
  · rintro ⟨m, hm⟩; exact ⟨_, m, hm, rfl⟩

/-- The nodes of a set measured along Y. -/
def yOf (og : OpenGraph) (s : Finset ℕ) : Finset ℕ :=
  s.filter fun v => (og.measurements.get? v).map Measurement.toPlaneOrAxis = some (.axis .Y)

theorem mem_yOf (og : OpenGraph) (s : Finset ℕ) (v : ℕ) : v ∈ og.yOf s ↔ v ∈ s ∧ og.HasLabel v (.axis .Y) := by
  unfold yOf HasLabel; simp [Option.map_eq_some_iff]

end OpenGraph

namespace Flow

theorem checkLabels_ok (og : OpenGraph) (allowed : Label → Bool) (l : List ℕ) :
    checkLabels og allowed l = .ok () ↔ ∀ i ∈ l, ∃ lab, og.HasLabel i lab ∧ allowed lab = true := by
  induction l with
  | nil => simp [checkLabels]
  | cons i l ih =>
    unfold checkLabels
    rw [bind_ok_iff]
    simp only [List.forall_mem_cons, OpenGraph.label_ok]
    constructor
    · rintro ⟨lab, h1, h2⟩
      by_cases h : allowed lab = true
      · rw [if_pos h, ih] at h2; exact ⟨⟨lab, h1, h⟩, h2⟩
      · rw [if_neg h] at h2; simp at h2
    · rintro ⟨⟨lab, h1, h⟩, h2⟩
      exact ⟨lab, h1, by rw [if_pos h, ih]; exact h2⟩

theorem yNodes_ok (og : OpenGraph) (l : List ℕ) (h : ∀ i ∈ l, ∃ lab, og.HasLabel i lab) :
    yNodes og l = .ok (og.yOf l.toFinset) := by
  induction l with
  | nil => simp [yNodes, OpenGraph.yOf]
  | cons i l ih =>
    obtain ⟨lab, hl⟩ := h i (by simp)
    have hr := ih fun j hj => h j (List.mem_cons_of_mem _ hj)
    simp only [yNodes, (og.label_ok i lab).2 hl, hr, bind, Except.bind, pure, Except.pure]
    congr 1
    ext v
    rw [OpenGraph.mem_yOf]
    by_cases hy : lab = .axis .Y
    · subst hy
      rw [if_pos rfl, Finset.mem_insert, OpenGraph.mem_yOf]
      simp only [List.mem_toFinset, List.mem_cons]
      constructor
      · rintro (rfl | ⟨h1, h2⟩)
        · exact ⟨Or.inl rfl, hl⟩
        · exact ⟨Or.inr h1, h2⟩
      · rintro ⟨rfl | h1, h2⟩
        · exact Or.inl rfl
        · exact Or.inr ⟨h1, h2⟩
    · rw [if_neg hy, OpenGraph.mem_yOf]
      simp only [List.mem_toFinset, List.mem_cons]
      constructor
      · rintro ⟨h1, h2⟩; exact ⟨Or.inr h1, h2⟩
      · rintro ⟨rfl | h1, h2⟩
        · exact absurd (hl.unique h2) hy
        · exact ⟨h1, h2⟩

theorem checkNodesPauli_ok (f : Flow) (ord : SetOrd) (past pastY : Finset ℕ) (l : List ℕ) :
    f.checkNodesPauli ord past pastY l = .ok () ↔ ∀ n ∈ l, f.checkNodePauli ord past pastY n = .ok () := by
  induction l with
  | nil => simp [checkNodesPauli]
  | cons n l ih => unfold checkNodesPauli; rw [bindU_ok_iff, List.forall_mem_cons, ih]

theorem checkNodesG_ok (f : Flow) (past : Finset ℕ) (l : List ℕ) :
    f.checkNodesG past l = .ok () ↔ ∀ n ∈ l, f.checkNodeG past n = .ok () := by
  induction l with
  | nil => simp [checkNodesG]
  | cons n l ih => unfold checkNodesG; rw [bindU_ok_iff, List.forall_mem_cons, ih]

theorem checkNodesC_ok (f : Flow) (past : Finset ℕ) (l : List ℕ) :
    f.checkNodesC past l = .ok () ↔ ∀ n ∈ l, f.checkNodeC past n = .ok () := by
  induction l with
  | nil => simp [checkNodesC]
  | cons n l ih => unfold checkNodesC; rw [bindU_ok_iff, List.forall_mem_cons, ih]

theorem cond_iff (L meas past : Finset ℕ) :
    ¬ (¬ L ⊆ meas ∨ L = ∅ ∨ L ∩ past ≠ ∅) ↔ L ⊆ meas ∧ L ≠ ∅ ∧ L ∩ past = ∅ := by
  push Not; rfl

theorem checkLayersG_ok (f : Flow) (ord : SetOrd) (hord : ord.Valid) (ls : List (Finset ℕ)) (past p' : Finset ℕ) :
    f.checkLayersG ord ls past = .ok p' ↔ p' = past ∪ unionL ls ∧
      LoopOk f.og.measurements.keys.toFinset (fun past n => f.checkNodeG past n = .ok ()) ls past := by
  induction ls generalizing past with
  | nil => simp [checkLayersG, LoopOk, eq_comm]
  | cons L ls ih =>
    unfold checkLayersG LoopOk
    by_cases hc : ¬ L ⊆ f.og.measurements.keys.toFinset ∨ L = ∅ ∨ L ∩ past ≠ ∅
    · rw [if_pos hc]
      have := mt (cond_iff L _ past).2 (not_not.2 hc)
      constructor
      · intro h; simp at h
      · rintro ⟨-, h1, h2, h3, -⟩; exact absurd ⟨h1, h2, h3⟩ this
    · rw [if_neg hc, bindU_ok_iff]
      have := (cond_iff L _ past).1 hc
      simp only [checkNodesG_ok, ih, unionL_cons, Finset.union_assoc, (hord _ _ _).2]
      constructor
      · rintro ⟨h1, h2, h3⟩; exact ⟨h2, this.1, this.2.1, this.2.2, h1, h3⟩
      · rintro ⟨h2, -, -, -, h1, h3⟩; exact ⟨h1, h2, h3⟩

theorem checkLayersC_ok (f : Flow) (ord : SetOrd) (hord : ord.Valid) (ls : List (Finset ℕ)) (past p' : Finset ℕ) :
    f.checkLayersC ord ls past = .ok p' ↔ p' = past ∪ unionL ls ∧
      LoopOk f.og.measurements.keys.toFinset (fun past n => f.checkNodeC past n = .ok ()) ls past := by
  induction ls generalizing past with
  | nil => simp [checkLayersC, LoopOk, eq_comm]
  | cons L ls ih =>
    unfold checkLayersC LoopOk
    by_cases hc : ¬ L ⊆ f.og.measurements.keys.toFinset ∨ L = ∅ ∨ L ∩ past ≠ ∅
    · rw [if_pos hc]
      have := mt (cond_iff L _ past).2 (not_not.2 hc)
      constructor
      · intro h; simp at h
      · rintro ⟨-, h1, h2, h3, -⟩; exact absurd ⟨h1, h2, h3⟩ this
    · rw [if_neg hc, bindU_ok_iff]
      have := (cond_iff L _ past).1 hc
      simp only [checkNodesC_ok, ih, unionL_cons, Finset.union_assoc, (hord _ _ _).2]
      constructor
      · rintro ⟨h1, h2, h3⟩; exact ⟨h2, this.1, this.2.1, this.2.2, h1, h3⟩
      · rintro ⟨h2, -, -, -, h1, h3⟩; exact ⟨h1, h2, h3⟩

theorem checkLayersPauli_ok (f : Flow) (ord : SetOrd) (hord : ord.Valid) (ls : List (Finset ℕ)) (past p' : Finset ℕ) :
    f.checkLayersPauli ord ls past (f.og.yOf past) = .ok p' ↔ p' = past ∪ unionL ls ∧
      LoopOk f.og.measurements.keys.toFinset
        (fun past n => f.checkNodePauli ord past (f.og.yOf past) n = .ok ()) ls past := by
  induction ls generalizing past with
  | nil => simp [checkLayersPauli, LoopOk, eq_comm]
  | cons L ls ih =>
    unfold checkLayersPauli LoopOk
    by_cases hc : ¬ L ⊆ f.og.measurements.keys.toFinset ∨ L = ∅ ∨ L ∩ past ≠ ∅
    · rw [if_pos hc]
      have := mt (cond_iff L _ past).2 (not_not.2 hc)
      constructor
      · intro h; simp at h
      · rintro ⟨-, h1, h2, h3, -⟩; exact absurd ⟨h1, h2, h3⟩ this
    · rw [if_neg hc, bind_ok_iff]
      have hcc := (cond_iff L _ past).1 hc
      have hy : yNodes f.og (ord 7 0 L) = .ok (f.og.yOf L) := by
        rw [yNodes_ok]
        · congr 2; ext v; simp [(hord _ _ _).2]
        · intro i hi
          have := hcc.1 (((hord _ _ _).2 i).1 hi)
          rw [List.mem_toFinset, ← PyDict.get?_isSome_iff, Option.isSome_iff_exists] at this
          obtain ⟨m, hm⟩ := this
          exact ⟨_, m, hm, rfl⟩
      have hyu : f.og.yOf past ∪ f.og.yOf L = f.og.yOf (past ∪ L) := by
        ext v; simp only [Finset.mem_union, OpenGraph.mem_yOf]; tauto
      simp only [hy, Except.ok.injEq, exists_eq_left', bindU_ok_iff, hyu]
      simp only [checkNodesPauli_ok, ih, unionL_cons, Finset.union_assoc, (hord _ _ _).2]
      constructor
      · rintro ⟨h1, h2, h3⟩; exact ⟨h2, hcc.1, hcc.2.1, hcc.2.2, h1, h3⟩
      · rintro ⟨h2, -, -, -, h1, h3⟩; exact ⟨h1, h2, h3⟩

theorem correctionSet_ok (f : Flow) (u : ℕ) (s : Finset ℕ) : f.correctionSet u = .ok s ↔ f.corr.get? u = some s := by
  unfold correctionSet
  cases f.corr.get? u <;> simp

theorem mem_foldl_union (l : List (Finset ℕ)) (a : Finset ℕ) (v : ℕ) :
    v ∈ l.foldl (· ∪ ·) a ↔ v ∈ a ∨ ∃ s ∈ l, v ∈ s := by
  induction l generalizing a with
  | nil => simp
  | cons s l ih => simp [ih, or_assoc]

theorem checkGeneral_ok (f : Flow) (hk : f.corr.keys.Nodup) : f.checkGeneral = .ok () ↔
    (∀ u, (∃ s, f.corr.get? u = some s) ↔ u ∈ f.og.nodes ∧ u ∉ f.og.outputs) ∧
    (∀ u s v, f.corr.get? u = some s → v ∈ s → v ∈ f.og.nodes ∧ v ∉ f.og.inputs) ∧ LayerHeadOk f.og f.layers := by
  have hd : f.domainOk = true ↔ ∀ u, (∃ s, f.corr.get? u = some s) ↔ u ∈ f.og.nodes ∧ u ∉ f.og.outputs := by
    unfold domainOk
    rw [decide_eq_true_iff, Finset.ext_iff]
    refine forall_congr' fun u => ?_
    rw [List.mem_toFinset, ← PyDict.get?_isSome_iff, Option.isSome_iff_exists]
    simp
  have hi : f.imageOk = true ↔ ∀ u s v, f.corr.get? u = some s → v ∈ s → v ∈ f.og.nodes ∧ v ∉ f.og.inputs := by
    unfold imageOk
    rw [decide_eq_true_iff]
    constructor
    · intro h u s v hs hv
      have := h ((mem_foldl_union _ _ _).2 (Or.inr ⟨s, List.mem_map.2 ⟨_, PyDict.mem_of_get? hs, rfl⟩, hv⟩))
      simpa using this
    · intro h v hv
      obtain h1 | ⟨s, h1, h2⟩ := (mem_foldl_union _ _ _).1 hv
      · simp at h1
      · obtain ⟨⟨u, s'⟩, h3, rfl⟩ := List.mem_map.1 h1
        have := h u s' v (PyDict.get?_of_mem hk h3) h2
        simpa using this
  unfold checkGeneral LayerHeadOk
  rw [← hd, ← hi]
  by_cases h1 : f.domainOk = true
  · by_cases h2 : f.imageOk = true
    · simp only [h1, h2, not_true_eq_false, if_false, true_and]
      cases f.layers with
      | nil =>
        by_cases h3 : f.og.nodes = ∅ <;> simp [h3]
      | cons first rest =>
        simp only []
        by_cases h3 : f.og.outputs.toFinset ≠ ∅ ∧ first ≠ f.og.outputs.toFinset
        · rw [if_pos h3]
          constructor
          · intro h; simp at h
          · rintro ⟨-, h⟩; exact absurd (h first rest rfl h3.1) h3.2
        · rw [if_neg h3]
          refine ⟨fun _ => ⟨by simp, ?_⟩, fun _ => rfl⟩
          intro a b hab hne
          simp only [List.cons.injEq] at hab
          rw [← hab.1]
          by_contra hne2; exact h3 ⟨hne, hne2⟩
    · simp [h1, h2]
  · simp [h1]

end Flow
end Graphix
