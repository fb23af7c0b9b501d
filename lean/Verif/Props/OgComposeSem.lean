import Verif.Proofs.OgComposeSem

/-!
# Property C62: composition of open graphs (semantics)
-/

namespace Graphix
namespace OpenGraph

/-- **C62** (`compose` raises exactly as documented, and returns the documented open graph) -/
theorem C62_compose (a b : OpenGraph) (ha : a.Valid) (hb : b.Valid) (mapping : PyDict ℕ ℕ) (hk : mapping.keys.Nodup) :
    ((∃ v ∈ mapping.keys, v ∉ b.nodes) → a.compose b mapping = .error .valueError) ∧
    (¬ (mapping.map Prod.snd).Nodup → a.compose b mapping = .error .valueError) ∧
    (a.nodes = ∅ → mapping = [] → a.compose b mapping = .error .valueError) ∧
    ((∀ v ∈ mapping.keys, v ∈ b.nodes) → (mapping.map Prod.snd).Nodup →
      ((∃ v u m m', mapping.get? v = some u ∧ b.measurements.get? v = some m ∧ a.measurements.get? u = some m' ∧
        m.isclose m' = false) → a.compose b mapping = .error .openGraphError) ∧
      ((∀ v u m m', mapping.get? v = some u → b.measurements.get? v = some m → a.measurements.get? u = some m' →
        m.isclose m' = true) → a.nodes ≠ ∅ ∨ mapping ≠ [] →
        ∃ og d f, a.compose b mapping = .ok (og, d) ∧ og.Valid ∧ IsMerge a b f og ∧
          (∀ v, d.get? v = if v ∈ b.nodes then some (f v) else none) ∧
          (∀ v u, mapping.get? v = some u → f v = u) ∧ (∀ v ∈ b.nodes, v ∉ mapping.keys → f v ∉ a.nodes) ∧
          (∀ v ∈ b.nodes, ∀ w ∈ b.nodes, f v = f w → v = w))) := by
  have hlen : (mapping.map Prod.snd).Nodup ↔ mapping.length = ((mapping.map Prod.snd).toFinset).card := by
    constructor
    · intro h; rw [List.toFinset_card_of_nodup h, List.length_map]
    · intro h; exact nodup_of_card (by rw [← h, List.length_map])
  refine ⟨?_, ?_, ?_, fun hs hv => ⟨?_, ?_⟩⟩
  · rintro ⟨v, hv, hvb⟩
    unfold compose
    dsimp only
    rw [if_pos fun h => hvb (h (List.mem_toFinset.2 hv))]
    rfl
  · intro h
    rw [hlen] at h
    unfold compose
    dsimp only
    by_cases hs : mapping.keys.toFinset ⊆ b.nodes
    · rw [if_neg (not_not.2 hs), if_pos h]; rfl
    · rw [if_pos hs]; rfl
  · rintro h1 rfl
    unfold compose
    simp [h1, PyDict.keys, bind, Except.bind, pure, Except.pure, throw, throwThe, MonadExceptOf.throw]
  · rintro ⟨v, u, m, m', h1, h2, h3, h4⟩
    unfold compose
    dsimp only
    have hs' : mapping.keys.toFinset ⊆ b.nodes := fun v hv => hs v (List.mem_toFinset.1 hv)
    rw [if_neg (not_not.2 hs'), if_neg (not_not.2 (hlen.1 hv)),
      foldlM_composeStep_error _ _ ⟨(v, u), PyDict.mem_of_get? h1, m, m', h2, h3, h4⟩]
    rfl
  · intro hcomp hne
    have hs' : mapping.keys.toFinset ⊆ b.nodes := fun v hv => hs v (List.mem_toFinset.1 hv)
    obtain ⟨og, h1, h2, h3, -⟩ := compose_spec ha hb hk hs' hv (fun vu hvu => by
      rintro ⟨m, m', h1, h2, h3⟩
      rw [hcomp vu.1 vu.2 m m' (PyDict.get?_of_mem hk hvu) h1 h2] at h3
      cases h3) (by
      rcases hne with h | h
      · intro h'; exact h (Finset.union_eq_empty.1 h').1
      · intro h'
        obtain ⟨x, hx⟩ := List.exists_mem_of_ne_nil _ h
        have := (Finset.union_eq_empty.1 h').2
        have hx' : x.2 ∈ (mapping.map Prod.snd).toFinset := List.mem_toFinset.2 (List.mem_map_of_mem hx)
        rw [this] at hx'
        simp at hx')
    refine ⟨og, _, renameOf a b mapping, h1, h2, h3, fun v => ?_, fun v u h => renameOf_mapping h, fun v hv' hm => ?_,
      fun v hv' w hw h => renameOf_inj hk hs' hv hv' hw h⟩
    · by_cases hvb : v ∈ b.nodes
      · rw [if_pos hvb, completeMap_get? hk hs' hvb]
      · rw [if_neg hvb, PyDict.get?_eq_none_iff, (completeMap_keys hk hs').2]
        exact hvb
    · exact (renameOf_fresh (self := a) hk hs' hv' ((PyDict.get?_eq_none_iff _ _).2 hm)).1

/-! ## The map of a composed open graph -/

/-- The outputs of `a` feed the inputs of `b`: when a node of `b` is merged, it is an input of `b` merged with an output of
`a`. -/
def Feeds (a b : OpenGraph) (f : ℕ → ℕ) : Prop := ∀ v ∈ b.nodes, f v ∈ a.nodes → v ∈ b.inputs ∧ f v ∈ a.outputs

theorem matrix_diag {c : Clifford} (h : c ∈ [Clifford.I, .Z, .S, .SDG]) : Diag c.matrix := by
  simp only [List.mem_cons, List.not_mem_nil, or_false] at h
  rcases h with rfl | rfl | rfl | rfl
  · rw [Clifford.matrix_I]; exact ⟨by simp, by simp⟩
  · rw [Clifford.matrix_Z]; exact ⟨by simp [Ops.Z, mat2], by simp [Ops.Z, mat2]⟩
  · rw [Clifford.matrix_S]; exact ⟨by simp [Ops.S, mat2], by simp [Ops.S, mat2]⟩
  · rw [Clifford.matrix_SDG]; exact ⟨by simp [Ops.SDG, mat2], by simp [Ops.SDG, mat2]⟩

theorem diag_one : Diag (1 : Mat2) := ⟨by simp, by simp⟩

/-- The product of the local operators. -/
theorem locF_merge {a b og : OpenGraph} {f : ℕ → ℕ} (ha : a.Valid) (hb : b.Valid) (hog : og.Valid)
    (hinj : ∀ v ∈ b.nodes, ∀ w ∈ b.nodes, f v = f w → v = w) (hm : IsMerge a b f og) (hf : Feeds a b f) (w : ℕ) :
    MatPhaseEq (og.locF w) ((b.rename f).locF w * a.locF w) := by
  have hnone : ∀ (g : OpenGraph), g.Valid → ∀ w, w ∈ g.outputs ∨ w ∉ g.nodes → g.measurements.get? w = none := by
    intro g hg w hw
    by_contra hne
    have := (hg.measured w).1 (by rwa [Option.isSome_iff_ne_none])
    rcases hw with hw | hw
    · exact this.2 hw
    · exact hw this.1
  by_cases hwb : ∃ v ∈ b.nodes, f v = w
  · obtain ⟨v, hv, rfl⟩ := hwb
    rw [locF_rename hb hinj hv]
    have ham : a.measurements.get? (f v) = none := by
      apply hnone a ha
      by_cases h : f v ∈ a.nodes
      · exact Or.inl (hf v hv h).2
      · exact Or.inr h
    cases hbm : b.measurements.get? v with
    | some m =>
      unfold locF
      rw [hm.meas_right v m hbm, hbm, ham]
      cases hac : a.cliffords.get? (f v) with
      | none => simp only [Measurement.after, Matrix.mul_one]; exact MatPhaseEq.refl _
      | some c => simp only [Measurement.after]; exact (bra_clifford m c false).symm
    | none =>
      have hvo : v ∈ b.outputs := by
        by_contra h
        have := (hb.measured v).2 ⟨hv, h⟩
        rw [hbm] at this; simp at this
      have hwo : f v ∈ og.outputs := by
        rw [hm.outputs, List.mem_append, List.mem_filter, List.mem_filter]
        have h2 : f v ∈ b.outputs.map f := List.mem_map_of_mem hvo
        by_cases h : Merged a b f (f v)
        · exact Or.inl ⟨(hf v hv h.1).2, by simp only [decide_eq_true_eq]; exact Or.inr h2⟩
        · exact Or.inr ⟨h2, by simpa using h⟩
      unfold locF
      rw [hnone og hog (f v) (Or.inl hwo), hbm, ham, hm.cliff_right v hv hwo]
      cases hac : a.cliffords.get? (f v) with
      | none =>
        cases hbc : b.cliffords.get? v with
        | none => simp only [Matrix.mul_one]; exact MatPhaseEq.refl _
        | some d => simp only [Matrix.mul_one]; exact MatPhaseEq.refl _
      | some c =>
        cases hbc : b.cliffords.get? v with
        | none => simp only [Matrix.one_mul]; exact MatPhaseEq.refl _
        | some d => exact (Clifford.mul_matrix d c).symm
  · have hwb' := hwb
    push Not at hwb'
    have h1 : (b.rename f).locF w = 1 := by
      unfold locF
      rw [(rename_meas hb hinj).2 w hwb', (rename_cliff hb hinj).2 w hwb']
    rw [h1, Matrix.one_mul]
    have hnm : ¬ Merged a b f w := fun h => hwb h.2
    have : og.locF w = a.locF w := by
      unfold locF
      cases ham : a.measurements.get? w with
      | some m => rw [hm.meas_left w m ham hnm]
      | none =>
        by_cases hwa : w ∈ a.nodes
        · have hao : w ∈ a.outputs := by
            by_contra h
            have := (ha.measured w).2 ⟨hwa, h⟩
            rw [ham] at this; simp at this
          have hwo : w ∈ og.outputs := by
            rw [hm.outputs, List.mem_append, List.mem_filter]
            exact Or.inl ⟨hao, by simp [hnm]⟩
          rw [hnone og hog w (Or.inl hwo), hm.cliff_left w hwo hwb']
        · have hwn : w ∉ og.nodes := fun h => ((hm.nodes w).1 h).elim hwa hwb
          have e1 := locF_notMem hog hwn
          have e2 := locF_notMem ha hwa
          unfold locF at e1 e2
          rw [ham] at e2
          rw [e1, e2]
    rw [this]; exact MatPhaseEq.refl _

/-- the number of nodes that are prepared -/
theorem card_prepared {a b og : OpenGraph} {f : ℕ → ℕ} (ha : a.Valid) (hb : b.Valid)
    (hinj : ∀ v ∈ b.nodes, ∀ w ∈ b.nodes, f v = f w → v = w) (hm : IsMerge a b f og) (hf : Feeds a b f) :
    (og.nodes \ og.inputs.toFinset).card =
      ((b.rename f).nodes \ (b.rename f).inputs.toFinset).card + (a.nodes \ a.inputs.toFinset).card := by
  rw [add_comm, ← Finset.card_union_of_disjoint]
  · congr 1
    ext w
    simp only [Finset.mem_sdiff, Finset.mem_union, List.mem_toFinset, hm.nodes]
    have hi : w ∈ og.inputs ↔ (w ∈ a.inputs ∧ (¬ Merged a b f w ∨ w ∈ b.inputs.map f)) ∨ (w ∈ b.inputs.map f ∧ ¬ Merged a b f w) := by
      rw [hm.inputs, List.mem_append, List.mem_filter, List.mem_filter]
      simp only [decide_eq_true_eq]
    rw [hi]
    change _ ↔ (_ ∧ _) ∨ (w ∈ b.nodes.image f ∧ w ∉ b.inputs.map f)
    rw [Finset.mem_image]
    by_cases hwa : w ∈ a.nodes
    · by_cases hwb : ∃ v ∈ b.nodes, f v = w
      · have hM : Merged a b f w := ⟨hwa, hwb⟩
        obtain ⟨v, hv, rfl⟩ := hwb
        have : f v ∈ b.inputs.map f := List.mem_map_of_mem (hf v hv hwa).1
        simp [hwa, hM, this]
      · have hM : ¬ Merged a b f w := fun h => hwb h.2
        have : w ∉ b.inputs.map f := fun h => by
          obtain ⟨v, hv, e⟩ := List.mem_map.1 h
          exact hwb ⟨v, hb.input_mem hv, e⟩
        simp [hwa, hM, this, hwb]
    · have hM : ¬ Merged a b f w := fun h => hwa h.1
      have : w ∉ a.inputs := fun h => hwa (ha.input_mem h)
      simp [hwa, hM, this]
  · rw [Finset.disjoint_left]
    intro w h1 h2
    simp only [Finset.mem_sdiff, List.mem_toFinset] at h1 h2
    obtain ⟨v, hv, rfl⟩ := Finset.mem_image.1 (show w ∈ b.nodes.image f from h2.1)
    exact h2.2 (List.mem_map_of_mem (hf v hv h1.1).1)

/-- **C62** (semantics; partial: see the counterexamples) when `compose` feeds the outputs of `self` into the inputs of `other`,
the map of the result is the map of `self` followed by the map of `other` (with its nodes renamed by the returned mapping), up to
a global phase, provided that no edge belongs to both graphs and that the Clifford of a merged output node, if there is one,
commutes with the edges of `other` (the node has no edge in `other`, or the Clifford is `I`, `Z`, `S` or `SDG`). -/
theorem C62_compose_map_partial (a b : OpenGraph) (ha : a.Valid) (hb : b.Valid) (mapping : PyDict ℕ ℕ) (hk : mapping.keys.Nodup)
    (og : OpenGraph) (d : PyDict ℕ ℕ) (h : a.compose b mapping = .ok (og, d)) (f : ℕ → ℕ)
    (hd : ∀ v ∈ b.nodes, d.get? v = some (f v)) (hf : Feeds a b f)
    (hedge : ∀ v w, b.Adj v w → ¬ a.Adj (f v) (f w))
    (hcliff : ∀ v w c, b.Adj v w → a.cliffords.get? (f v) = some c → c ∈ [Clifford.I, .Z, .S, .SDG]) :
    OpPhaseEq og.linMap (fun ψ => (b.rename f).linMap (a.linMap ψ)) := by
  -- the call succeeded, so the requirements hold
  obtain ⟨c1, c2, c3, c4⟩ := C62_compose a b ha hb mapping hk
  have hs : ∀ v ∈ mapping.keys, v ∈ b.nodes := by
    by_contra hc; push Not at hc
    rw [c1 hc] at h; cases h
  have hv : (mapping.map Prod.snd).Nodup := by
    by_contra hc; rw [c2 hc] at h; cases h
  have hne : a.nodes ∪ (mapping.map Prod.snd).toFinset ≠ ∅ := by
    intro hc
    obtain ⟨hc1, hc2⟩ := Finset.union_eq_empty.1 hc
    rw [c3 hc1 (by simpa using hc2)] at h; cases h
  have hcl : ∀ vu ∈ mapping, ¬ Clash a b vu.1 vu.2 := by
    rintro vu hvu ⟨m, m', h1, h2, h3⟩
    rw [(c4 hs hv).1 ⟨vu.1, vu.2, m, m', PyDict.get?_of_mem hk hvu, h1, h2, h3⟩] at h; cases h
  have hs' : mapping.keys.toFinset ⊆ b.nodes := fun v hv => hs v (List.mem_toFinset.1 hv)
  obtain ⟨og', h1, hog, hm, hE⟩ := compose_spec ha hb hk hs' hv hcl hne
  rw [h] at h1
  cases h1
  have hff : ∀ v ∈ b.nodes, renameOf a b mapping v = f v := fun v hv' => by
    have := hd v hv'
    rw [completeMap_get? hk hs' hv'] at this
    exact Option.some.inj this
  set g := renameOf a b mapping with hg
  have hinj : ∀ v ∈ b.nodes, ∀ w ∈ b.nodes, g v = g w → v = w := fun v hv' w hw h => renameOf_inj hk hs' hv hv' hw h
  have hren : b.rename f = b.rename g := by
    unfold rename
    congr 1
    · exact Finset.image_congr fun v hv' => (hff v hv').symm
    · refine List.map_congr_left fun e he => ?_
      rw [hff _ (hb.edge_mem e.1 e.2 he).1, hff _ (hb.edge_mem e.1 e.2 he).2]
    · exact List.map_congr_left fun v hv' => (hff v (hb.input_mem hv')).symm
    · exact List.map_congr_left fun v hv' => (hff v (hb.output_mem hv')).symm
    · refine List.map_congr_left fun kv hkv => ?_
      rw [hff kv.1 ((hb.measured kv.1).1 ((PyDict.get?_isSome_iff _ _).2 (List.mem_map_of_mem hkv))).1]
    · refine List.map_congr_left fun kv hkv => ?_
      obtain ⟨c, hc⟩ := Option.isSome_iff_exists.1 ((PyDict.get?_isSome_iff b.cliffords kv.1).2 (List.mem_map_of_mem hkv))
      rw [hff kv.1 (hb.output_mem (hb.clifford_mem hc))]
  have hf' : Feeds a b g := fun v hv' h => by rw [hff v hv'] at h ⊢; exact hf v hv' h
  have hmemB : ∀ x y, b.Adj x y → x ∈ b.nodes ∧ y ∈ b.nodes := fun x y h => by
    rcases h with h | h
    · exact hb.edge_mem _ _ h
    · exact (hb.edge_mem _ _ h).symm
  have hedge' : ∀ v w, b.Adj v w → ¬ a.Adj (g v) (g w) := fun v w h => by
    rw [hff v (hmemB v w h).1, hff w (hmemB v w h).2]; exact hedge v w h
  have hdiag : ∀ v w, b.Adj v w → Diag (a.locF (g v)) := fun v w h => by
    have hvb := (hmemB v w h).1
    unfold locF
    have ham : a.measurements.get? (g v) = none := by
      by_contra hne
      have := (ha.measured _).1 (by rwa [Option.isSome_iff_ne_none])
      exact this.2 (hf' v hvb this.1).2
    rw [ham]
    cases hc : a.cliffords.get? (g v) with
    | none => exact diag_one
    | some c => exact matrix_diag (hcliff v w c h (by rw [← hff v hvb]; exact hc))
  have hE' : og.edges = a.edges ++ (b.rename g).edges := by
    rw [hE]
    congr 1
    refine List.filter_eq_self.2 fun e he => ?_
    obtain ⟨x, hx, rfl⟩ := List.mem_map.1 he
    have := hedge' x.1 x.2 (Or.inl hx)
    simp only [decide_eq_true_eq]
    exact ⟨fun h => this (Or.inl h), fun h => this (Or.inr h)⟩
  have hcz : ∀ ψ, czList og.edges ψ = czList (b.rename g).edges (czList a.edges ψ) := fun ψ => by
    rw [hE']; unfold czList; rw [List.foldl_append]
  have hbv := rename_valid hb hinj
  have hsub : a.nodes ⊆ og.nodes := fun w hw => (hm.nodes w).2 (Or.inl hw)
  have hsubB : (b.rename g).nodes ⊆ og.nodes := fun w hw => by
    obtain ⟨v, hv', e⟩ := Finset.mem_image.1 (show w ∈ b.nodes.image g from hw)
    exact (hm.nodes w).2 (Or.inr ⟨v, hv', e⟩)
  obtain ⟨z, hz, hph⟩ := locOps_phase (l := og.nodes.sort (· ≤ ·)) fun w _ => locF_merge ha hb hog hinj hm hf' w
  refine ⟨z, hz, fun ψ => ?_⟩
  dsimp only
  rw [hren, linMap_locF hog, linMap_locF ha, linMap_locF hbv, hcz, hph]
  have hhom : ∀ (es : List (ℕ × ℕ)) (k : ℂ) (φ : QState), czList es (k • φ) = k • czList es φ := fun es k φ => by
    funext x; rw [czList_apply, Pi.smul_apply, Pi.smul_apply, czList_apply, smul_eq_mul, smul_eq_mul]; ring
  rw [locOps_extend hsub (fun w _ hw => locF_notMem ha hw), locOps_extend hsubB (fun w _ hw => locF_notMem hbv hw), hhom,
    locOps_homog, ← locOps_mul _ _ (Finset.sort_nodup _ _), card_prepared ha hb hinj hm hf', ← locOps_czList_diag, pow_add]
  · simp only [smul_smul]; ring_nf
  · intro e he
    obtain ⟨x, hx, rfl⟩ := List.mem_map.1 (show e ∈ b.edges.map _ from he)
    exact ⟨hdiag x.1 x.2 (Or.inl hx), hdiag x.2 x.1 (Or.inr hx)⟩

end OpenGraph
end Graphix
