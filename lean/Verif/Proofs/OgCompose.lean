import Verif.Model.OgCompose
import Verif.Spec.OgMerge
import Verif.Proofs.FlowCheck2
import Verif.Props.Compose

/-! Lemmas on `OpenGraph.compose`. -/

namespace Graphix
namespace OpenGraph

/-- The measurements of the pair can not be merged. -/
def Clash (self other : OpenGraph) (v u : ℕ) : Prop :=
  ∃ a b, other.measurements.get? v = some a ∧ self.measurements.get? u = some b ∧ a.isclose b = false

/-- the node that the pairs map to `u` -/
def preim (l : PyDict ℕ ℕ) (u : ℕ) : Option ℕ := (l.find? fun vu => vu.2 = u).map Prod.fst

theorem keys_set_of_get? {α β : Type} [DecidableEq α] {d : PyDict α β} {k : α} {v : β} (h : (d.get? k).isSome) :
    PyDict.keys (PyDict.set d k v) = PyDict.keys d := by
  rw [PyDict.keys_set, if_pos ((PyDict.get?_isSome_iff d k).1 h)]

theorem composeStep_ok {self other : OpenGraph} {acc : PyDict ℕ Measurement × PyDict ℕ Measurement} {vu : ℕ × ℕ}
    (h : ¬ Clash self other vu.1 vu.2) : composeStep self other acc vu =
      .ok (match self.measurements.get? vu.2, other.cliffords.get? vu.1 with
        | some b, some vc => acc.1.set vu.2 (b.clifford vc)
        | _, _ => acc.1, match other.measurements.get? vu.1, self.cliffords.get? vu.2 with
        | some a, some uc => acc.2.set vu.1 (a.clifford uc)
        | _, _ => acc.2) := by
  unfold composeStep
  dsimp only
  rw [if_neg]
  · rfl
  cases h1 : other.measurements.get? vu.1 with
  | none => simp
  | some a =>
    cases h2 : self.measurements.get? vu.2 with
    | none => simp
    | some b =>
      have : a.isclose b = true := by
        by_contra hc
        exact h ⟨a, b, h1, h2, by simpa using hc⟩
      simp [this]

theorem composeStep_error {self other : OpenGraph} {acc : PyDict ℕ Measurement × PyDict ℕ Measurement} {vu : ℕ × ℕ}
    (h : Clash self other vu.1 vu.2) : composeStep self other acc vu = .error .openGraphError := by
  obtain ⟨a, b, h1, h2, h3⟩ := h
  unfold composeStep
  simp [h1, h2, h3]

theorem foldlM_composeStep_error {self other : OpenGraph} (l : PyDict ℕ ℕ)
    (acc : PyDict ℕ Measurement × PyDict ℕ Measurement) (h : ∃ vu ∈ l, Clash self other vu.1 vu.2) :
    l.foldlM (composeStep self other) acc = .error .openGraphError := by
  induction l generalizing acc with
  | nil => obtain ⟨_, h, _⟩ := h; simp at h
  | cons x l ih =>
    rw [List.foldlM_cons]
    by_cases hx : Clash self other x.1 x.2
    · rw [composeStep_error hx]; rfl
    · rw [composeStep_ok hx]
      apply ih
      obtain ⟨vu, hvu, hc⟩ := h
      rcases List.mem_cons.1 hvu with rfl | hvu
      · exact absurd hc hx
      · exact ⟨vu, hvu, hc⟩

/-- What the loop over the mapping computes. -/
theorem foldlM_composeStep_ok {self other : OpenGraph} (l : PyDict ℕ ℕ) (acc : PyDict ℕ Measurement × PyDict ℕ Measurement)
    (hk : l.keys.Nodup) (hvd : (l.map Prod.snd).Nodup) (h : ∀ vu ∈ l, ¬ Clash self other vu.1 vu.2)
    (h1 : ∀ u, u ∈ l.map Prod.snd → acc.1.get? u = self.measurements.get? u)
    (h2 : ∀ v, v ∈ l.keys → acc.2.get? v = other.measurements.get? v) :
    ∃ ms mo, l.foldlM (composeStep self other) acc = .ok (ms, mo) ∧ ms.keys = acc.1.keys ∧ mo.keys = acc.2.keys ∧
      (∀ u, ms.get? u = (acc.1.get? u).map fun m => m.after ((preim l u).bind other.cliffords.get?)) ∧
      (∀ v, mo.get? v = (acc.2.get? v).map fun m => m.after ((l.get? v).bind self.cliffords.get?)) := by
  induction l generalizing acc with
  | nil =>
    refine ⟨acc.1, acc.2, rfl, rfl, rfl, fun u => ?_, fun v => ?_⟩
    · cases acc.1.get? u <;> rfl
    · cases acc.2.get? v <;> rfl
  | cons x l ih =>
    obtain ⟨v, u⟩ := x
    have hk' := List.nodup_cons.1 (show (v :: PyDict.keys l).Nodup from hk)
    have hv' := List.nodup_cons.1 (show (u :: l.map Prod.snd).Nodup from hvd)
    have hnc := h (v, u) (by simp)
    rw [List.foldlM_cons, composeStep_ok hnc]
    dsimp only
    have e1 := h1 u (by simp)
    have e2 := h2 v (by simp [PyDict.keys])
    -- the new accumulator
    have hA : ∀ (a1 : PyDict ℕ Measurement), a1 = (match self.measurements.get? u, other.cliffords.get? v with
        | some b, some vc => acc.1.set u (b.clifford vc)
        | _, _ => acc.1) → a1.keys = acc.1.keys ∧
        ∀ u', a1.get? u' = if u = u' then (acc.1.get? u').map fun m => m.after (other.cliffords.get? v) else acc.1.get? u' := by
      rintro a1 rfl
      cases hm : self.measurements.get? u with
      | none =>
        refine ⟨rfl, fun u' => ?_⟩
        dsimp only
        by_cases hu : u = u'
        · subst hu; rw [if_pos rfl, e1, hm]; rfl
        · rw [if_neg hu]
      | some b =>
        cases hc : other.cliffords.get? v with
        | none =>
          refine ⟨rfl, fun u' => ?_⟩
          dsimp only
          by_cases hu : u = u'
          · subst hu; rw [if_pos rfl, e1, hm]; rfl
          · rw [if_neg hu]
        | some c =>
          refine ⟨keys_set_of_get? (by rw [e1, hm]; rfl), fun u' => ?_⟩
          rw [PyDict.get?_set]
          by_cases hu : u = u'
          · subst hu; rw [if_pos rfl, if_pos rfl, e1, hm]; rfl
          · rw [if_neg hu, if_neg hu]
    have hB : ∀ (a2 : PyDict ℕ Measurement), a2 = (match other.measurements.get? v, self.cliffords.get? u with
        | some a, some uc => acc.2.set v (a.clifford uc)
        | _, _ => acc.2) → a2.keys = acc.2.keys ∧
        ∀ v', a2.get? v' = if v = v' then (acc.2.get? v').map fun m => m.after (self.cliffords.get? u) else acc.2.get? v' := by
      rintro a1 rfl
      cases hm : other.measurements.get? v with
      | none =>
        refine ⟨rfl, fun u' => ?_⟩
        dsimp only
        by_cases hu : v = u'
        · subst hu; rw [if_pos rfl, e2, hm]; rfl
        · rw [if_neg hu]
      | some b =>
        cases hc : self.cliffords.get? u with
        | none =>
          refine ⟨rfl, fun u' => ?_⟩
          dsimp only
          by_cases hu : v = u'
          · subst hu; rw [if_pos rfl, e2, hm]; rfl
          · rw [if_neg hu]
        | some c =>
          refine ⟨keys_set_of_get? (by rw [e2, hm]; rfl), fun u' => ?_⟩
          rw [PyDict.get?_set]
          by_cases hu : v = u'
          · subst hu; rw [if_pos rfl, if_pos rfl, e2, hm]; rfl
          · rw [if_neg hu, if_neg hu]
    obtain ⟨hA1, hA2⟩ := hA _ rfl
    obtain ⟨hB1, hB2⟩ := hB _ rfl
    obtain ⟨ms, mo, r1, r2, r3, r4, r5⟩ := ih (_, _) hk'.2 hv'.2 (fun vu hvu => h vu (by simp [hvu]))
      (fun u' hu' => by
        rw [hA2, if_neg (by rintro rfl; exact hv'.1 hu')]
        exact h1 u' (by simp only [List.map_cons, List.mem_cons]; exact Or.inr hu'))
      (fun u' hu' => by
        rw [hB2, if_neg (by rintro rfl; exact hk'.1 hu')]
        exact h2 u' (List.mem_cons_of_mem _ hu'))
    refine ⟨ms, mo, r1, r2.trans hA1, r3.trans hB1, fun u' => ?_, fun v' => ?_⟩
    · rw [r4, hA2]
      unfold preim
      rw [List.find?_cons]
      by_cases hu : u = u'
      · subst hu
        have : l.find? (fun vu => vu.2 = u) = none := by
          rw [List.find?_eq_none]
          intro y hy hyu
          exact hv'.1 (by rw [← of_decide_eq_true hyu]; exact List.mem_map_of_mem hy)
        rw [if_pos rfl, this]
        simp only [Option.map_none, Option.bind_none, Option.map_map, decide_true]
        cases acc.1.get? u <;> rfl
      · simp only [hu, if_false, decide_false]
    · rw [r5, hB2, PyDict.get?_cons]
      by_cases hu : v = v'
      · subst hu
        have : PyDict.get? l v = none := (PyDict.get?_eq_none_iff _ _).2 hk'.1
        rw [if_pos rfl, this, if_pos rfl]
        simp only [Option.bind_none, Option.map_map]
        cases acc.2.get? v <;> rfl
      · simp only [hu, if_false]

theorem get?_append {α β : Type} [DecidableEq α] (d d' : PyDict α β) (k : α) :
    PyDict.get? (d ++ d') k = (PyDict.get? d k).or (PyDict.get? d' k) := by
  induction d with
  | nil => rfl
  | cons x d ih =>
    obtain ⟨a, b⟩ := x
    rw [List.cons_append, PyDict.get?_cons, PyDict.get?_cons, ih]
    by_cases h : a = k <;> simp [h]

/-- the node labels that `compose` chooses for the nodes of `other` that are not in the mapping -/
noncomputable def seqMap (self other : OpenGraph) (mapping : PyDict ℕ ℕ) : PyDict ℕ ℕ :=
  ((other.nodes \ mapping.keys.toFinset).sort (· ≤ ·)).zipIdx ((self.nodes ∪ (mapping.map Prod.snd).toFinset).sup id + 1)

theorem seqMap_snd (self other : OpenGraph) (mapping : PyDict ℕ ℕ) : ((seqMap self other mapping).map Prod.snd).Nodup ∧
    ∀ k ∈ (seqMap self other mapping).map Prod.snd, k ∉ self.nodes ∧ k ∉ mapping.map Prod.snd := by
  unfold seqMap
  have e : ∀ (l : List ℕ) (n : ℕ), (l.zipIdx n).map Prod.snd = List.range' n l.length := fun l n => by
    simp
  rw [e]
  refine ⟨List.nodup_range', fun k hk => ?_⟩
  have hk' := (List.mem_range'_1.1 hk).1
  constructor
  · intro hs
    have := Finset.le_sup (f := id) (Finset.mem_union_left (mapping.map Prod.snd).toFinset hs)
    simp only [id] at this
    omega
  · intro hs
    have := Finset.le_sup (f := id) (Finset.mem_union_right self.nodes (List.mem_toFinset.2 hs))
    simp only [id] at this
    omega

theorem seqMap_keys (self other : OpenGraph) (mapping : PyDict ℕ ℕ) : (seqMap self other mapping).keys =
    (other.nodes \ mapping.keys.toFinset).sort (· ≤ ·) := by
  unfold seqMap PyDict.keys
  simp

/-- The complete mapping. -/
noncomputable def completeMap (self other : OpenGraph) (mapping : PyDict ℕ ℕ) : PyDict ℕ ℕ :=
  mapping ++ seqMap self other mapping

/-- The renaming. -/
noncomputable def renameOf (self other : OpenGraph) (mapping : PyDict ℕ ℕ) (n : ℕ) : ℕ :=
  ((completeMap self other mapping).get? n).getD 0

section
variable {self other : OpenGraph} {mapping : PyDict ℕ ℕ}

theorem completeMap_keys (hk : mapping.keys.Nodup) (hs : mapping.keys.toFinset ⊆ other.nodes) :
    (completeMap self other mapping).keys.Nodup ∧ ∀ n, n ∈ (completeMap self other mapping).keys ↔ n ∈ other.nodes := by
  have e : (completeMap self other mapping).keys = mapping.keys ++ (other.nodes \ mapping.keys.toFinset).sort (· ≤ ·) := by
    rw [← seqMap_keys self other mapping]; unfold completeMap PyDict.keys; rw [List.map_append]
  rw [e]
  constructor
  · refine nodup_of_lists hk (Finset.sort_nodup _ _) fun x hx => ?_
    simp only [Finset.mem_sort, Finset.mem_sdiff, List.mem_toFinset, not_and, not_not]
    exact fun _ => hx
  · intro n
    simp only [List.mem_append, Finset.mem_sort, Finset.mem_sdiff, List.mem_toFinset]
    constructor
    · rintro (h | h)
      · exact hs (List.mem_toFinset.2 h)
      · exact h.1
    · intro h
      by_cases hm : n ∈ mapping.keys
      · exact Or.inl hm
      · exact Or.inr ⟨h, hm⟩

theorem completeMap_get? (hk : mapping.keys.Nodup) (hs : mapping.keys.toFinset ⊆ other.nodes) {n : ℕ} (hn : n ∈ other.nodes) :
    (completeMap self other mapping).get? n = some (renameOf self other mapping n) := by
  have := ((PyDict.get?_isSome_iff _ _).2 (((completeMap_keys (self := self) hk hs).2 n).2 hn))
  obtain ⟨u, hu⟩ := Option.isSome_iff_exists.1 this
  unfold renameOf
  rw [hu]; rfl

theorem renameOf_mapping {v u : ℕ} (h : mapping.get? v = some u) : renameOf self other mapping v = u := by
  unfold renameOf completeMap
  rw [get?_append, h]; rfl

theorem renameOf_fresh (hk : mapping.keys.Nodup) (hs : mapping.keys.toFinset ⊆ other.nodes) {n : ℕ} (hn : n ∈ other.nodes)
    (hm : mapping.get? n = none) : renameOf self other mapping n ∉ self.nodes ∧
      renameOf self other mapping n ∉ mapping.map Prod.snd := by
  have h := completeMap_get? (self := self) hk hs hn
  unfold completeMap at h
  rw [get?_append, hm, Option.none_or] at h
  exact (seqMap_snd self other mapping).2 _ (List.mem_map.2 ⟨_, PyDict.mem_of_get? h, rfl⟩)

theorem renameOf_inj (hk : mapping.keys.Nodup) (hs : mapping.keys.toFinset ⊆ other.nodes)
    (hv : (mapping.map Prod.snd).Nodup) {n m : ℕ} (hn : n ∈ other.nodes) (hm : m ∈ other.nodes)
    (h : renameOf self other mapping n = renameOf self other mapping m) : n = m := by
  have h1 := PyDict.mem_of_get? (completeMap_get? (self := self) hk hs hn)
  have h2 := PyDict.mem_of_get? (completeMap_get? (self := self) hk hs hm)
  have hnd : ((completeMap self other mapping).map Prod.snd).Nodup := by
    unfold completeMap
    rw [List.map_append]
    exact nodup_of_lists hv (seqMap_snd self other mapping).1 fun x hx hx' => ((seqMap_snd self other mapping).2 x hx').2 hx
  rw [h] at h1
  have := List.inj_on_of_nodup_map hnd h1 h2 rfl
  exact congrArg Prod.fst this

theorem look_complete (hk : mapping.keys.Nodup) (hs : mapping.keys.toFinset ⊆ other.nodes) {n : ℕ} (hn : n ∈ other.nodes) :
    look (completeMap self other mapping) n = .ok (renameOf self other mapping n) := by
  unfold look; rw [completeMap_get? hk hs hn]

theorem mem_complete_snd (hk : mapping.keys.Nodup) (hs : mapping.keys.toFinset ⊆ other.nodes) (w : ℕ) :
    w ∈ (completeMap self other mapping).map Prod.snd ↔ ∃ v ∈ other.nodes, renameOf self other mapping v = w := by
  obtain ⟨k1, k2⟩ := completeMap_keys (self := self) hk hs
  constructor
  · intro h
    obtain ⟨⟨v, u⟩, hvu, rfl⟩ := List.mem_map.1 h
    have hv : v ∈ other.nodes := (k2 v).1 (List.mem_map.2 ⟨_, hvu, rfl⟩)
    refine ⟨v, hv, ?_⟩
    have h1 := PyDict.get?_of_mem k1 hvu
    rw [completeMap_get? hk hs hv] at h1
    exact Option.some.inj h1
  · rintro ⟨v, hv, rfl⟩
    exact List.mem_map.2 ⟨_, PyDict.mem_of_get? (completeMap_get? (self := self) hk hs hv), rfl⟩

theorem mergePorts_ok (hk : mapping.keys.Nodup) (hs : mapping.keys.toFinset ⊆ other.nodes) (merged : Finset ℕ) (p1 p2 : List ℕ)
    (h2 : ∀ n ∈ p2, n ∈ other.nodes) : mergePorts (completeMap self other mapping) merged p1 p2 =
      .ok ((p1.filter fun n => n ∉ merged ∨ n ∈ p2.map (renameOf self other mapping)) ++
        (p2.map (renameOf self other mapping)).filter fun n => n ∉ merged) := by
  unfold mergePorts
  rw [mapM_ok_map p2 _ (renameOf self other mapping) fun n hn => look_complete hk hs (h2 n hn)]
  rfl

theorem foldlM_composeCliffords {f : ℕ → ℕ} {d : PyDict ℕ ℕ} {O : List ℕ} (l acc : PyDict ℕ Clifford) (hl : l.keys.Nodup)
    (hinj : ∀ v ∈ l.keys, ∀ w ∈ l.keys, f v = f w → v = w) (hd : ∀ v ∈ l.keys, look d v = .ok (f v)) (hacc : acc.keys.Nodup) :
    ∃ cl, l.foldlM (composeCliffords d O) acc = .ok cl ∧ cl.keys.Nodup ∧ (∀ w ∈ cl.keys, w ∈ acc.keys ∨ w ∈ O) ∧
      (∀ v c, l.get? v = some c → f v ∈ O → cl.get? (f v) = some (c.mul ((acc.get? (f v)).getD .I))) ∧
      (∀ w, (∀ v ∈ l.keys, f v ≠ w) → cl.get? w = acc.get? w) := by
  induction l generalizing acc with
  | nil => exact ⟨acc, rfl, hacc, fun w h => Or.inl h, fun v c h => by simp at h, fun w _ => rfl⟩
  | cons x l ih =>
    obtain ⟨v, c⟩ := x
    have hl' := List.nodup_cons.1 (show (v :: PyDict.keys l).Nodup from hl)
    have hstep : composeCliffords d O acc (v, c) =
        .ok (if f v ∈ O then acc.set (f v) (c.mul ((acc.get? (f v)).getD .I)) else acc) := by
      unfold composeCliffords
      rw [hd v (by simp [PyDict.keys])]
      by_cases h : f v ∈ O <;> simp [h, bind, Except.bind, pure, Except.pure]
    rw [List.foldlM_cons, hstep]
    have hn : (if f v ∈ O then acc.set (f v) (c.mul ((acc.get? (f v)).getD .I)) else acc).keys.Nodup := by
      by_cases h : f v ∈ O
      · rw [if_pos h]; exact PyDict.keys_set_nodup hacc _ _
      · rw [if_neg h]; exact hacc
    have hne : ∀ v' ∈ PyDict.keys l, f v' ≠ f v := fun v' hv' e => by
      have := hinj v' (List.mem_cons_of_mem _ hv') v (by simp [PyDict.keys]) e
      subst this; exact hl'.1 hv'
    obtain ⟨cl, r1, r2, r3, r4, r5⟩ := ih _ hl'.2 (fun a ha b hb => hinj a (List.mem_cons_of_mem _ ha) b (List.mem_cons_of_mem _ hb))
      (fun a ha => hd a (List.mem_cons_of_mem _ ha)) hn
    refine ⟨cl, r1, r2, fun w hw => ?_, fun v' c' h hO => ?_, fun w hw => ?_⟩
    · rcases r3 w hw with h | h
      · by_cases hO : f v ∈ O
        · rw [if_pos hO, PyDict.mem_keys_set] at h
          rcases h with rfl | h
          · exact Or.inr hO
          · exact Or.inl h
        · rw [if_neg hO] at h; exact Or.inl h
      · exact Or.inr h
    · rw [PyDict.get?_cons] at h
      by_cases hv : v = v'
      · subst hv
        rw [if_pos rfl] at h
        cases h
        rw [r5 _ hne, if_pos hO, PyDict.get?_set_self]
      · rw [if_neg hv] at h
        have hmem : v' ∈ PyDict.keys l := (PyDict.get?_isSome_iff _ _).1 (by rw [h]; rfl)
        rw [r4 v' c' h hO]
        by_cases hO' : f v ∈ O
        · rw [if_pos hO', PyDict.get?_set_ne _ _ (Ne.symm (hne v' hmem))]
        · rw [if_neg hO']
    · rw [r5 w fun v' hv' => hw v' (List.mem_cons_of_mem _ hv')]
      by_cases hO : f v ∈ O
      · rw [if_pos hO, PyDict.get?_set_ne _ _ (hw v (by simp [PyDict.keys]))]
      · rw [if_neg hO]

end

theorem postInit_intro {og : OpenGraph} (h1 : ∀ w, (og.measurements.get? w).isSome ↔ w ∈ og.nodes ∧ w ∉ og.outputs)
    (h2 : ∀ w ∈ og.inputs, w ∈ og.nodes) (h3 : ∀ w ∈ og.outputs, w ∈ og.nodes) (h4 : og.inputs.Nodup) (h5 : og.outputs.Nodup)
    (h6 : ∀ w ∈ og.cliffords.keys, w ∈ og.outputs) : og.postInit = .ok () := by
  have e : og.measurements.keys.toFinset = og.nodes \ og.outputs.toFinset := by
    ext w
    rw [List.mem_toFinset, ← PyDict.get?_isSome_iff, h1]; simp
  unfold postInit
  dsimp only
  rw [if_neg, if_neg, if_neg, if_neg, if_neg, if_neg, if_neg, if_neg]
  · rw [not_not]; intro w hw; rw [List.mem_toFinset] at *; exact h6 w hw
  · rw [not_not]; exact List.toFinset_card_of_nodup h5
  · rw [not_not]; exact List.toFinset_card_of_nodup h4
  · rw [not_not]; exact e.symm
  · rw [not_not, e]; exact Finset.inter_sdiff_self _ _
  · rw [not_not]; intro w hw; exact h3 w (by simpa using hw)
  · rw [not_not]; intro w hw; exact h2 w (by simpa using hw)
  · rw [not_not, e]; exact Finset.sdiff_subset

theorem foldl_setD {α β : Type} [DecidableEq α] (l : PyDict α β) (hl : l.keys.Nodup) (d : PyDict α β) :
    (∀ n, PyDict.get? (l.foldl (fun d kv => PyDict.set d kv.1 kv.2) d) n = (l.get? n).or (d.get? n)) ∧
    (d.keys.Nodup → (PyDict.keys (l.foldl (fun d kv => PyDict.set d kv.1 kv.2) d)).Nodup) := by
  induction l generalizing d with
  | nil => exact ⟨fun n => rfl, fun h => h⟩
  | cons x l ih =>
    obtain ⟨a, b⟩ := x
    have hl' := List.nodup_cons.1 (show (a :: PyDict.keys l).Nodup from hl)
    obtain ⟨i1, i2⟩ := ih hl'.2 (d.set a b)
    refine ⟨fun n => ?_, fun h => i2 (PyDict.keys_set_nodup h _ _)⟩
    rw [List.foldl_cons, i1, PyDict.get?_cons]
    by_cases h : a = n
    · subst h
      rw [(PyDict.get?_eq_none_iff _ _).2 hl'.1, if_pos rfl, PyDict.get?_set_self]; rfl
    · rw [if_neg h, PyDict.get?_set_ne _ _ h]

/-- renaming the keys of a dictionary -/
theorem get?_rename {β : Type} {f : ℕ → ℕ} (l : PyDict ℕ β) {S : Finset ℕ} (hS : ∀ v ∈ l.keys, v ∈ S)
    (hinj : ∀ v ∈ S, ∀ w ∈ S, f v = f w → v = w) :
    (∀ v ∈ S, PyDict.get? (l.map fun im => (f im.1, im.2)) (f v) = l.get? v) ∧
    ∀ w, (∀ v ∈ l.keys, f v ≠ w) → PyDict.get? (l.map fun im => (f im.1, im.2)) w = none := by
  constructor
  · intro v hv
    induction l with
    | nil => rfl
    | cons x l ih =>
      obtain ⟨a, b⟩ := x
      rw [List.map_cons, PyDict.get?_cons, PyDict.get?_cons, ih fun v hv => hS v (List.mem_cons_of_mem _ hv)]
      by_cases h : a = v
      · subst h; rw [if_pos rfl, if_pos rfl]
      · rw [if_neg h, if_neg fun e => h (hinj a (hS a (by simp [PyDict.keys])) v hv e)]
  · intro w hw
    rw [PyDict.get?_eq_none_iff]
    intro h
    unfold PyDict.keys at h
    rw [List.map_map] at h
    obtain ⟨y, hy, hyw⟩ := List.mem_map.1 h
    exact hw y.1 (List.mem_map_of_mem hy) hyw

theorem preim_some {l : PyDict ℕ ℕ} (hl : l.keys.Nodup) {u v : ℕ} (h : preim l u = some v) : l.get? v = some u := by
  unfold preim at h
  obtain ⟨x, hx, rfl⟩ := Option.map_eq_some_iff.1 h
  have h1 := List.find?_some hx
  have h2 := List.mem_of_find?_eq_some hx
  have h3 : x.2 = u := of_decide_eq_true h1
  subst h3
  exact PyDict.get?_of_mem hl h2

theorem preim_none {l : PyDict ℕ ℕ} {u : ℕ} (h : preim l u = none) (v : ℕ) : l.get? v ≠ some u := by
  unfold preim at h
  rw [Option.map_eq_none_iff, List.find?_eq_none] at h
  intro hv
  exact h _ (PyDict.mem_of_get? hv) (by simp)

theorem Valid.measured {og : OpenGraph} (h : og.Valid) (w : ℕ) :
    (og.measurements.get? w).isSome ↔ w ∈ og.nodes ∧ w ∉ og.outputs := by
  rw [PyDict.get?_isSome_iff, ← List.mem_toFinset, (OpenGraph.postInit_ok h.post).1]; simp

theorem Valid.input_mem {og : OpenGraph} (h : og.Valid) {w : ℕ} (hw : w ∈ og.inputs) : w ∈ og.nodes :=
  (OpenGraph.postInit_ok h.post).2.1 (List.mem_toFinset.2 hw)

theorem Valid.output_mem {og : OpenGraph} (h : og.Valid) {w : ℕ} (hw : w ∈ og.outputs) : w ∈ og.nodes :=
  (OpenGraph.postInit_ok h.post).2.2.1 (List.mem_toFinset.2 hw)

theorem Valid.clifford_mem {og : OpenGraph} (h : og.Valid) {w : ℕ} {c : Clifford} (hw : og.cliffords.get? w = some c) :
    w ∈ og.outputs := by
  have := (OpenGraph.postInit_ok h.post).2.2.2.2.2 (x := w)
    (List.mem_toFinset.2 ((PyDict.get?_isSome_iff _ _).1 (by rw [hw]; rfl)))
  simpa using this

end OpenGraph
end Graphix
