import Verif.Model.StdOpenGraph
import Verif.Props.XZPattern
import Verif.Props.Determinism
import Verif.Props.FlowOrder
import Verif.Proofs.SpaceMin

/-! Helper lemmas on the conversion of standardized patterns to open graphs with corrections. -/

namespace Graphix

/-! ### Local operators -/

theorem xorl_parity {l : List ℕ} (hl : l.Nodup) (r : ℕ → Bool) {D : Finset ℕ} (hD : ∀ u ∈ D, u ∈ l) :
    xorl l (fun u => r u && decide (u ∈ D)) = parity r D := by
  rw [xorl_filter_length]
  unfold parity
  have h : (l.filter fun u => r u && decide (u ∈ D)).toFinset = D.filter (fun n => r n = true) := by
    ext n
    simp only [List.mem_toFinset, List.mem_filter, Bool.and_eq_true, decide_eq_true_eq, Finset.mem_filter]
    constructor
    · rintro ⟨-, h1, h2⟩; exact ⟨h2, h1⟩
    · rintro ⟨h1, h2⟩; exact ⟨hD n h1, h2, h1⟩
  rw [← h, List.toFinset_card_of_nodup (hl.filter _)]

theorem accum_mul (r : ℕ → Bool) (cmds : List Command) (w : ℕ) (A B : Mat2) :
    accum r cmds w (A * B) = accum r cmds w A * B := by
  induction cmds generalizing A with
  | nil => rfl
  | cons c cmds ih =>
    cases h : c.localOp? r with
    | none =>
      have e : ∀ A, accum r (c :: cmds) w A = accum r cmds w A := by intro A; simp [accum, h]
      rw [e, e, ih]
    | some nU =>
      obtain ⟨n, U⟩ := nU
      rw [accum_cons h, accum_cons h]
      by_cases hn : n = w
      · rw [if_pos hn, if_pos hn, ← Matrix.mul_assoc, ih]
      · rw [if_neg hn, if_neg hn, ih]

theorem accum_phase (r : ℕ → Bool) (cmds : List Command) (w : ℕ) {A B : Mat2} (h : MatPhaseEq A B) :
    MatPhaseEq (accum r cmds w A) (accum r cmds w B) := by
  have e : ∀ A, accum r cmds w A = accum r cmds w 1 * A := by
    intro A; rw [← accum_mul, Matrix.one_mul]
  rw [e A, e B]
  exact (MatPhaseEq.refl _).mul h

/-- What the blocks of measurements and corrections do to each node. -/
theorem accum_blocks {r : ℕ → Bool} {order : List ℕ} (hnd : order.Nodup) {meas : ℕ → Measurement}
    {xl zl : ℕ → List ℕ} (hx : ∀ u, (xl u).Nodup) (hz : ∀ u, (zl u).Nodup)
    (hlater : ∀ pre u post, order = pre ++ u :: post → ∀ w, w ∈ xl u ∨ w ∈ zl u → w ∉ pre ∧ w ≠ u) (w : ℕ) :
    MatPhaseEq (accum r (order.flatMap (blockOf meas xl zl)) w 1)
      (if w ∈ order then bra (measVec (meas w) (r w)) * pauliXZ (xorl order fun u => r u && decide (w ∈ xl u))
          (xorl order fun u => r u && decide (w ∈ zl u))
        else pauliXZ (xorl order fun u => r u && decide (w ∈ xl u)) (xorl order fun u => r u && decide (w ∈ zl u))) := by
  by_cases hwo : w ∈ order
  · rw [if_pos hwo]
    obtain ⟨pre, post, hsplit⟩ := List.append_of_mem hwo
    have hnd' := hnd
    rw [hsplit, List.nodup_append, List.nodup_cons] at hnd'
    have hwpre : w ∉ pre := fun h => hnd'.2.2 w h w (by simp) rfl
    have hwpost : w ∉ post := hnd'.2.1.1
    have hself := hlater pre w post hsplit
    have hpost : ∀ u ∈ post, w ∉ xl u ∧ w ∉ zl u := by
      intro u hu
      obtain ⟨q1, q2, hq⟩ := List.append_of_mem hu
      have := hlater (pre ++ w :: q1) u q2 (by rw [hsplit, hq]; simp)
      constructor
      · intro h; exact (this w (Or.inl h)).1 (by simp)
      · intro h; exact (this w (Or.inr h)).1 (by simp)
    have hwself : w ∉ xl w ∧ w ∉ zl w := ⟨fun h => (hself w (Or.inl h)).2 rfl, fun h => (hself w (Or.inr h)).2 rfl⟩
    have e1 : ∀ f : ℕ → List ℕ, w ∉ f w → (∀ u ∈ post, w ∉ f u) →
        xorl order (fun u => r u && decide (w ∈ f u)) = xorl pre fun u => r u && decide (w ∈ f u) := by
      intro f h1 h2
      rw [hsplit, xorl_append, xorl_cons, xorl_congr (g := fun _ => false) (l := post), xorl_false]
      · simp [h1]
      · intro u hu; simp [h2 u hu]
    rw [e1 xl hwself.1 fun u hu => (hpost u hu).1, e1 zl hwself.2 fun u hu => (hpost u hu).2]
    rw [hsplit, List.flatMap_append, List.flatMap_cons, accum_append, accum_append,
      accum_after post hwpost (fun u _ => hx u) (fun u _ => hz u) hpost, accum_block (hx w) (hz w), if_pos rfl]
    have h1 := accum_before (r := r) (meas := meas) pre hwpre (fun u _ => hx u) (fun u _ => hz u) false false 1
      (MatPhaseEq.of_eq pauliXZ_false.symm)
    simp only [Bool.false_xor] at h1
    have h2 : pauliXZ (r w && decide (w ∈ xl w)) (r w && decide (w ∈ zl w)) = 1 := by
      simp [hwself.1, hwself.2, pauliXZ_false]
    rw [h2, Matrix.one_mul]
    exact (MatPhaseEq.refl _).mul h1
  · rw [if_neg hwo]
    have h1 := accum_before (r := r) (meas := meas) order hwo (fun u _ => hx u) (fun u _ => hz u) false false 1
      (MatPhaseEq.of_eq pauliXZ_false.symm)
    simpa using h1

theorem accum_mcmds {r : ℕ → Bool} {w : ℕ} {ms : List MCmd} (hnd : (ms.map MCmd.node).Nodup) (A : Mat2) :
    (w ∉ ms.map MCmd.node → accum r (ms.map MCmd.toCmd) w A = A) ∧
    (∀ m ∈ ms, m.node = w → accum r (ms.map MCmd.toCmd) w A =
      bra (measVec m.measurement (r w)) * (powB Ops.X (parity r m.sDomain) * powB Ops.Z (parity r m.tDomain)) * A) := by
  induction ms generalizing A with
  | nil => simp
  | cons c ms ih =>
    rw [List.map_cons, List.nodup_cons] at hnd
    have e : accum r ((c :: ms).map MCmd.toCmd) w A = accum r (ms.map MCmd.toCmd) w
      (if c.node = w then bra (measVec c.measurement (r c.node)) *
        (powB Ops.X (parity r c.sDomain) * powB Ops.Z (parity r c.tDomain)) * A else A) := by
      rw [List.map_cons]; exact accum_cons rfl _ _ _
    rw [e]
    constructor
    · intro hw
      rw [List.map_cons, List.mem_cons, not_or] at hw
      rw [if_neg (Ne.symm hw.1)]
      exact (ih hnd.2 A).1 hw.2
    · intro m hm hmw
      rcases List.mem_cons.1 hm with rfl | hm
      · rw [if_pos hmw]
        subst hmw
        exact (ih hnd.2 _).1 hnd.1
      · have : c.node ≠ w := by
          rintro rfl
          exact hnd.1 (hmw ▸ List.mem_map_of_mem hm)
        rw [if_neg this]
        exact (ih hnd.2 A).2 m hm hmw

theorem accum_zdict {r : ℕ → Bool} {w : ℕ} {d : PyDict ℕ (Finset ℕ)} (hnd : (PyDict.keys d).Nodup) (A : Mat2) :
    accum r (d.map fun kv => Command.Z kv.1 kv.2) w A = powB Ops.Z (parity r (domAt d w)) * A := by
  induction d generalizing A with
  | nil => simp [domAt, parity_empty, powB]
  | cons kv d ih =>
    obtain ⟨k, D⟩ := kv
    have hnd' : k ∉ PyDict.keys d ∧ (PyDict.keys d).Nodup := by
      simpa [PyDict.keys] using hnd
    rw [List.map_cons, accum_cons (n := k) (U := powB Ops.Z (parity r D)) rfl, ih hnd'.2]
    unfold domAt
    rw [PyDict.get?_cons]
    by_cases h : k = w
    · subst h
      rw [if_pos rfl, if_pos rfl, (PyDict.get?_eq_none_iff d k).2 hnd'.1]
      simp [parity_empty, powB]
    · rw [if_neg h, if_neg h]

theorem accum_xdict {r : ℕ → Bool} {w : ℕ} {d : PyDict ℕ (Finset ℕ)} (hnd : (PyDict.keys d).Nodup) (A : Mat2) :
    accum r (d.map fun kv => Command.X kv.1 kv.2) w A = powB Ops.X (parity r (domAt d w)) * A := by
  induction d generalizing A with
  | nil => simp [domAt, parity_empty, powB]
  | cons kv d ih =>
    obtain ⟨k, D⟩ := kv
    have hnd' : k ∉ PyDict.keys d ∧ (PyDict.keys d).Nodup := by
      simpa [PyDict.keys] using hnd
    rw [List.map_cons, accum_cons (n := k) (U := powB Ops.X (parity r D)) rfl, ih hnd'.2]
    unfold domAt
    rw [PyDict.get?_cons]
    by_cases h : k = w
    · subst h
      rw [if_pos rfl, if_pos rfl, (PyDict.get?_eq_none_iff d k).2 hnd'.1]
      simp [parity_empty, powB]
    · rw [if_neg h, if_neg h]

/-! ### The correction dictionaries -/

open StdPattern

theorem updateCorrections_spec {ord : Finset ℕ → List ℕ} (hord : ∀ s x, x ∈ ord s ↔ x ∈ s) (node : ℕ) (D : Finset ℕ)
    (c : PyDict ℕ (Finset ℕ)) (hc : c.keys.Nodup) :
    (updateCorrections ord node D c).keys.Nodup ∧
    (∀ u w, InD (updateCorrections ord node D c) u w ↔ InD c u w ∨ (u ∈ D ∧ w = node)) ∧
    (∀ u, u ∈ (updateCorrections ord node D c).keys ↔ u ∈ c.keys ∨ u ∈ D) := by
  unfold updateCorrections
  have key : ∀ (l : List ℕ) (c : PyDict ℕ (Finset ℕ)), c.keys.Nodup →
      (l.foldl (fun c u => c.set u (insert node ((c.get? u).getD ∅))) c).keys.Nodup ∧
      (∀ u w, InD (l.foldl (fun c u => c.set u (insert node ((c.get? u).getD ∅))) c) u w ↔
        InD c u w ∨ (u ∈ l ∧ w = node)) ∧
      (∀ u, u ∈ (l.foldl (fun c u => c.set u (insert node ((c.get? u).getD ∅))) c).keys ↔ u ∈ c.keys ∨ u ∈ l) := by
    intro l
    induction l with
    | nil => intro c hc; simpa using hc
    | cons a l ih =>
      intro c hc
      rw [List.foldl_cons]
      obtain ⟨h1, h2, h3⟩ := ih _ (PyDict.keys_set_nodup hc a (insert node ((c.get? a).getD ∅)))
      refine ⟨h1, ?_, ?_⟩
      · intro u w
        rw [h2]
        have : InD (c.set a (insert node ((c.get? a).getD ∅))) u w ↔ InD c u w ∨ (u = a ∧ w = node) := by
          unfold InD
          rw [PyDict.get?_set]
          by_cases hu : a = u
          · subst hu
            rw [if_pos rfl]
            cases hg : c.get? a with
            | none => simp
            | some s => simp; tauto
          · rw [if_neg hu]
            simp [Ne.symm hu]
        rw [this, List.mem_cons]
        tauto
      · intro u
        rw [h3, PyDict.mem_keys_set, List.mem_cons]
        tauto
  have := key (ord D) c hc
  simpa only [hord] using this

/-- A sequence of updates. -/
theorem foldl_updateCorrections {ι : Type} (l : List ι) (node : ι → ℕ) (D : ι → Finset ℕ) (ord : ι → Finset ℕ → List ℕ)
    (hord : ∀ i s x, x ∈ ord i s ↔ x ∈ s) (c : PyDict ℕ (Finset ℕ)) (hc : c.keys.Nodup) :
    (l.foldl (fun c i => updateCorrections (ord i) (node i) (D i) c) c).keys.Nodup ∧
    (∀ u w, InD (l.foldl (fun c i => updateCorrections (ord i) (node i) (D i) c) c) u w ↔
      InD c u w ∨ ∃ i ∈ l, u ∈ D i ∧ w = node i) ∧
    (∀ u, u ∈ (l.foldl (fun c i => updateCorrections (ord i) (node i) (D i) c) c).keys ↔
      u ∈ c.keys ∨ ∃ i ∈ l, u ∈ D i) := by
  induction l generalizing c with
  | nil => simpa using hc
  | cons i l ih =>
    rw [List.foldl_cons]
    obtain ⟨a1, a2, a3⟩ := updateCorrections_spec (hord i) (node i) (D i) c hc
    obtain ⟨h1, h2, h3⟩ := ih _ a1
    refine ⟨h1, ?_, ?_⟩
    · intro u w
      rw [h2, a2]; simp [or_assoc]
    · intro u
      rw [h3, a3]; simp [or_assoc]

/-- The domain of the X corrections of a node of a standardized pattern (for a measured node, the s-domain of its
measurement). -/
def StdPattern.XDom (sp : StdPattern) (u w : ℕ) : Prop :=
  (∃ m ∈ sp.mList, m.node = w ∧ u ∈ m.sDomain) ∨ ∃ D, (w, D) ∈ sp.xDict ∧ u ∈ D

/-- The same for the Z corrections (t-domain). -/
def StdPattern.ZDom (sp : StdPattern) (u w : ℕ) : Prop :=
  (∃ m ∈ sp.mList, m.node = w ∧ u ∈ m.tDomain) ∨ ∃ D, (w, D) ∈ sp.zDict ∧ u ∈ D

theorem corrections_spec (sp : StdPattern) {ord : SetOrd} (hord : ord.Valid) :
    (sp.corrections ord).1.keys.Nodup ∧ (sp.corrections ord).2.keys.Nodup ∧
    (∀ u w, InD (sp.corrections ord).1 u w ↔ sp.XDom u w) ∧ (∀ u w, InD (sp.corrections ord).2 u w ↔ sp.ZDom u w) ∧
    (∀ u, u ∈ (sp.corrections ord).1.keys → ∃ w, sp.XDom u w) ∧ (∀ u, u ∈ (sp.corrections ord).2.keys → ∃ w, sp.ZDom u w) := by
  unfold StdPattern.corrections
  simp only []
  obtain ⟨a1, a2, a3⟩ := foldl_updateCorrections sp.mList MCmd.node MCmd.sDomain (fun m => ord 16 m.node)
    (fun i s x => (hord _ _ s).2 x) [] (by simp [PyDict.keys])
  obtain ⟨b1, b2, b3⟩ := foldl_updateCorrections sp.mList MCmd.node MCmd.tDomain (fun m => ord 17 m.node)
    (fun i s x => (hord _ _ s).2 x) [] (by simp [PyDict.keys])
  obtain ⟨c1, c2, c3⟩ := foldl_updateCorrections sp.xDict Prod.fst Prod.snd (fun kv => ord 18 kv.1)
    (fun i s x => (hord _ _ s).2 x) _ a1
  obtain ⟨d1, d2, d3⟩ := foldl_updateCorrections sp.zDict Prod.fst Prod.snd (fun kv => ord 19 kv.1)
    (fun i s x => (hord _ _ s).2 x) _ b1
  have hnil : ∀ u w, ¬ InD [] u w := by rintro u w ⟨s, hs, -⟩; simp at hs
  refine ⟨c1, d1, ?_, ?_, ?_, ?_⟩
  · intro u w
    rw [c2, a2]
    unfold StdPattern.XDom
    constructor
    · rintro ((h | ⟨m, hm, h1, rfl⟩) | ⟨⟨k, D⟩, hk, h1, rfl⟩)
      · exact absurd h (hnil _ _)
      · exact Or.inl ⟨m, hm, rfl, h1⟩
      · exact Or.inr ⟨D, hk, h1⟩
    · rintro (⟨m, hm, rfl, h1⟩ | ⟨D, hk, h1⟩)
      · exact Or.inl (Or.inr ⟨m, hm, h1, rfl⟩)
      · exact Or.inr ⟨(w, D), hk, h1, rfl⟩
  · intro u w
    rw [d2, b2]
    unfold StdPattern.ZDom
    constructor
    · rintro ((h | ⟨m, hm, h1, rfl⟩) | ⟨⟨k, D⟩, hk, h1, rfl⟩)
      · exact absurd h (hnil _ _)
      · exact Or.inl ⟨m, hm, rfl, h1⟩
      · exact Or.inr ⟨D, hk, h1⟩
    · rintro (⟨m, hm, rfl, h1⟩ | ⟨D, hk, h1⟩)
      · exact Or.inl (Or.inr ⟨m, hm, h1, rfl⟩)
      · exact Or.inr ⟨(w, D), hk, h1, rfl⟩
  · intro u hu
    rw [c3, a3] at hu
    rcases hu with (hu | ⟨m, hm, h1⟩) | ⟨⟨k, D⟩, hk, h1⟩
    · simp [PyDict.keys] at hu
    · exact ⟨m.node, Or.inl ⟨m, hm, rfl, h1⟩⟩
    · exact ⟨k, Or.inr ⟨D, hk, h1⟩⟩
  · intro u hu
    rw [d3, b3] at hu
    rcases hu with (hu | ⟨m, hm, h1⟩) | ⟨⟨k, D⟩, hk, h1⟩
    · simp [PyDict.keys] at hu
    · exact ⟨m.node, Or.inl ⟨m, hm, rfl, h1⟩⟩
    · exact ⟨k, Or.inr ⟨D, hk, h1⟩⟩

end Graphix
