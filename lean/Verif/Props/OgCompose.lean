import Verif.Proofs.OgCompose

/-!
# Property C62: composition of open graphs
-/

namespace Graphix
namespace OpenGraph

theorem mul_I' (c : Clifford) : c.mul .I = c := by
  revert c; decide +kernel

/-- The value that `compose` returns when it does not raise. -/
theorem compose_spec {a b : OpenGraph} {mapping : PyDict ℕ ℕ} (ha : a.Valid) (hb : b.Valid) (hk : mapping.keys.Nodup)
    (hs : mapping.keys.toFinset ⊆ b.nodes) (hvd : (mapping.map Prod.snd).Nodup) (hc : ∀ vu ∈ mapping, ¬ Clash a b vu.1 vu.2)
    (hne : a.nodes ∪ (mapping.map Prod.snd).toFinset ≠ ∅) :
    ∃ og, a.compose b mapping = .ok (og, completeMap a b mapping) ∧ og.Valid ∧ IsMerge a b (renameOf a b mapping) og ∧
      og.edges = a.edges ++ (b.edges.map fun e => (renameOf a b mapping e.1, renameOf a b mapping e.2)).filter
        fun e => e ∉ a.edges ∧ (e.2, e.1) ∉ a.edges := by
  set f := renameOf a b mapping with hf
  have hinj : ∀ v ∈ b.nodes, ∀ w ∈ b.nodes, f v = f w → v = w := fun v hv w hw h => renameOf_inj hk hs hvd hv hw h
  obtain ⟨ms, mo, r1, r2, r3, r4, r5⟩ := foldlM_composeStep_ok mapping (a.measurements, b.measurements) hk hvd hc
    (fun _ _ => rfl) (fun _ _ => rfl)
  dsimp only at r2 r3 r4 r5
  have hmo : ∀ v ∈ mo.keys, v ∈ b.nodes := fun v hv => by
    rw [r3] at hv
    exact ((hb.measured v).1 ((PyDict.get?_isSome_iff _ _).2 hv)).1
  have hcl : ∀ v ∈ b.cliffords.keys, v ∈ b.nodes := fun v hv => by
    obtain ⟨c, hc⟩ := Option.isSome_iff_exists.1 ((PyDict.get?_isSome_iff _ _).2 hv)
    exact hb.output_mem (hb.clifford_mem hc)
  set nodes2 := ((completeMap a b mapping).map Prod.snd).toFinset with hn2
  have hmem2 : ∀ w, w ∈ nodes2 ↔ ∃ v ∈ b.nodes, f v = w := fun w => by
    rw [hn2, List.mem_toFinset]; exact mem_complete_snd hk hs w
  set merged := nodes2 ∩ a.nodes with hmg
  have hmerged : ∀ w, w ∈ merged ↔ Merged a b f w := fun w => by
    rw [hmg, Finset.mem_inter, hmem2]; unfold Merged; exact and_comm
  set ins := (a.inputs.filter fun n => n ∉ merged ∨ n ∈ b.inputs.map f) ++ (b.inputs.map f).filter fun n => n ∉ merged with hins
  set outs := (a.outputs.filter fun n => n ∉ merged ∨ n ∈ b.outputs.map f) ++ (b.outputs.map f).filter fun n => n ∉ merged
    with houts
  have hi := mergePorts_ok (self := a) hk hs merged a.inputs b.inputs fun n hn => hb.input_mem hn
  have ho := mergePorts_ok (self := a) hk hs merged a.outputs b.outputs fun n hn => hb.output_mem hn
  rw [← hf, ← hins] at hi
  rw [← hf, ← houts] at ho
  have he := mapM_ok_map b.edges (fun e => (do
    let x ← look (completeMap a b mapping) e.1
    let y ← look (completeMap a b mapping) e.2
    pure (x, y) : Except PyErr (ℕ × ℕ))) (fun e => (f e.1, f e.2)) (fun e he => by
      rw [look_complete hk hs (hb.edge_mem e.1 e.2 he).1, look_complete hk hs (hb.edge_mem e.1 e.2 he).2]; rfl)
  set shifted : PyDict ℕ Measurement := mo.map fun im => (f im.1, im.2) with hsh
  have hsft := mapM_ok_map mo (fun im => (do
    let w ← look (completeMap a b mapping) im.1
    pure (w, im.2) : Except PyErr (ℕ × Measurement))) (fun im => (f im.1, im.2)) (fun im him => by
      rw [look_complete hk hs (hmo im.1 (List.mem_map_of_mem him))]; rfl)
  rw [← hsh] at hsft
  have hshk : shifted.keys.Nodup := by
    have : shifted.keys = mo.keys.map f := by rw [hsh]; unfold PyDict.keys; rw [List.map_map, List.map_map]; rfl
    rw [this]
    refine List.Nodup.map_on (fun x hx y hy h => hinj x (hmo x hx) y (hmo y hy) h) ?_
    rw [r3]; exact hb.meas_keys
  obtain ⟨g1, g2⟩ := foldl_setD shifted hshk ms
  set meas := shifted.foldl (fun (d : PyDict ℕ Measurement) im => d.set im.1 im.2) ms with hmeas
  obtain ⟨s1, s2⟩ := get?_rename mo hmo hinj
  rw [← hsh] at s1 s2
  set c0 : PyDict ℕ Clifford := a.cliffords.filter fun nc => nc.1 ∈ outs with hc0
  have hc0k : c0.keys.Nodup := by
    rw [hc0]; exact (ha.clif_keys).sublist (List.Sublist.map _ List.filter_sublist)
  have hc0get : ∀ w, c0.get? w = if w ∈ outs then a.cliffords.get? w else none := by
    intro w
    rw [hc0]
    generalize a.cliffords = l
    induction l with
    | nil => simp
    | cons x l ih =>
      obtain ⟨k, c⟩ := x
      rw [List.filter_cons]
      by_cases hko : k ∈ outs
      · rw [if_pos (by simpa using hko), PyDict.get?_cons, PyDict.get?_cons, ih]
        by_cases hkw : k = w
        · subst hkw; simp [hko]
        · simp [hkw]
      · rw [if_neg (by simpa using hko), ih, PyDict.get?_cons]
        by_cases hkw : k = w
        · subst hkw; simp [hko]
        · simp [hkw]
  obtain ⟨cl, q1, q2, q3, q4, q5⟩ := foldlM_composeCliffords (f := f) (d := completeMap a b mapping) (O := outs)
    b.cliffords c0 hb.clif_keys (fun v hv w hw h => hinj v (hcl v hv) w (hcl w hw) h)
    (fun v hv => look_complete hk hs (hcl v hv)) hc0k
  set edges := a.edges ++ (b.edges.map fun e => (f e.1, f e.2)).filter fun e => e ∉ a.edges ∧ (e.2, e.1) ∉ a.edges with hedges
  let og : OpenGraph := ⟨a.nodes ∪ nodes2, edges, ins, outs, meas, cl⟩
  -- values of the measurements
  have m1 : ∀ v m, b.measurements.get? v = some m → meas.get? (f v) = some (m.after (a.cliffords.get? (f v))) := by
    intro v m hm
    have hv : v ∈ b.nodes := ((hb.measured v).1 (by rw [hm]; rfl)).1
    rw [g1, s1 v hv, r5, hm]
    simp only [Option.map_some, Option.some_or]
    congr 2
    cases hmv : mapping.get? v with
    | none =>
      rw [Option.bind_none]
      have := (renameOf_fresh (self := a) hk hs hv hmv).1
      rw [← hf] at this
      symm
      by_contra hne'
      obtain ⟨c, hc⟩ := Option.ne_none_iff_exists'.1 hne'
      exact this (ha.output_mem (ha.clifford_mem hc))
    | some u => rw [Option.bind_some, hf, renameOf_mapping hmv]
  have m2 : ∀ w, (∀ v ∈ b.nodes, f v = w → b.measurements.get? v = none) →
      meas.get? w = (a.measurements.get? w).map fun m => m.after ((preim mapping w).bind b.cliffords.get?) := by
    intro w hw
    rw [g1, r4]
    have : shifted.get? w = none := by
      by_cases hx : ∃ v ∈ b.nodes, f v = w
      · obtain ⟨v, hv, rfl⟩ := hx
        rw [s1 v hv, r5, hw v hv rfl]; rfl
      · push Not at hx
        exact s2 w fun v hv => hx v (hmo v hv)
    rw [this]; rfl
  have hsome : ∀ w, (meas.get? w).isSome ↔ (∃ v, (b.measurements.get? v).isSome ∧ f v = w) ∨ (a.measurements.get? w).isSome := by
    intro w
    by_cases hx : ∃ v, (b.measurements.get? v).isSome ∧ f v = w
    · obtain ⟨v, hv, rfl⟩ := hx
      obtain ⟨m, hm⟩ := Option.isSome_iff_exists.1 hv
      rw [m1 v m hm]
      exact ⟨fun _ => Or.inl ⟨v, hv, rfl⟩, fun _ => rfl⟩
    · rw [m2 w fun v _ hvw => by
        by_contra hne'
        exact hx ⟨v, by rwa [Option.isSome_iff_ne_none], hvw⟩]
      simp [hx]
  have hmemo : ∀ w, w ∈ outs ↔ (w ∈ a.outputs ∧ (¬ Merged a b f w ∨ w ∈ b.outputs.map f)) ∨ (w ∈ b.outputs.map f ∧ ¬ Merged a b f w) := by
    intro w
    rw [houts, List.mem_append, List.mem_filter, List.mem_filter]
    simp only [decide_eq_true_eq, hmerged]
  have hmemi : ∀ w, w ∈ ins ↔ (w ∈ a.inputs ∧ (¬ Merged a b f w ∨ w ∈ b.inputs.map f)) ∨ (w ∈ b.inputs.map f ∧ ¬ Merged a b f w) := by
    intro w
    rw [hins, List.mem_append, List.mem_filter, List.mem_filter]
    simp only [decide_eq_true_eq, hmerged]
  have hmapo : ∀ w, w ∈ b.outputs.map f → ∃ v ∈ b.nodes, v ∈ b.outputs ∧ f v = w := fun w hw => by
    obtain ⟨v, hv, rfl⟩ := List.mem_map.1 hw
    exact ⟨v, hb.output_mem hv, hv, rfl⟩
  have hmapi : ∀ w, w ∈ b.inputs.map f → ∃ v ∈ b.nodes, v ∈ b.inputs ∧ f v = w := fun w hw => by
    obtain ⟨v, hv, rfl⟩ := List.mem_map.1 hw
    exact ⟨v, hb.input_mem hv, hv, rfl⟩
  have hnodup : ∀ (p q : List ℕ), p.Nodup → q.Nodup → (∀ w ∈ p, w ∈ a.nodes) → (∀ v ∈ q, v ∈ b.nodes) →
      ((p.filter fun n => n ∉ merged ∨ n ∈ q.map f) ++ (q.map f).filter fun n => n ∉ merged).Nodup := by
    intro p q hp hq hpa hqb
    refine nodup_of_lists (hp.filter _) ((List.Nodup.map_on (fun x hx y hy h => hinj x (hqb x hx) y (hqb y hy) h) hq).filter _) ?_
    intro x hx hx'
    rw [List.mem_filter] at hx hx'
    have h1 : x ∉ merged := by simpa using hx'.2
    obtain ⟨v, hv, rfl⟩ := List.mem_map.1 hx'.1
    exact h1 ((hmerged _).2 ⟨hpa _ hx.1, v, hqb v hv, rfl⟩)
  obtain ⟨-, -, -, ani, ano, -⟩ := OpenGraph.postInit_ok ha.post
  obtain ⟨-, -, -, bni, bno, -⟩ := OpenGraph.postInit_ok hb.post
  have hpost : og.postInit = .ok () := by
    refine postInit_intro (og := og) (fun w => ?_) (fun w hw => ?_) (fun w hw => ?_) ?_ ?_ ?_
    · change (meas.get? w).isSome ↔ w ∈ a.nodes ∪ nodes2 ∧ w ∉ outs
      rw [hsome, hmemo, Finset.mem_union, hmem2]
      constructor
      · rintro (⟨v, hv, rfl⟩ | h)
        · obtain ⟨hvn, hvo⟩ := (hb.measured v).1 hv
          refine ⟨Or.inr ⟨v, hvn, rfl⟩, ?_⟩
          have hno : f v ∉ b.outputs.map f := fun h => by
            obtain ⟨v', hv', hv'o, e⟩ := hmapo _ h
            exact hvo (hinj v' hv' v hvn e ▸ hv'o)
          rintro (⟨h1, h2 | h2⟩ | ⟨h1, -⟩)
          · exact h2 ⟨ha.output_mem h1, v, hvn, rfl⟩
          · exact hno h2
          · exact hno h1
        · obtain ⟨h1, h2⟩ := (ha.measured w).1 h
          refine ⟨Or.inl h1, ?_⟩
          rintro (⟨h3, -⟩ | ⟨h3, h4⟩)
          · exact h2 h3
          · obtain ⟨v, hv, -, e⟩ := hmapo _ h3
            exact h4 ⟨h1, v, hv, e⟩
      · rintro ⟨h1, h2⟩
        push Not at h2
        by_cases hwm : (a.measurements.get? w).isSome
        · exact Or.inr hwm
        left
        rw [ha.measured] at hwm
        push Not at hwm
        by_cases hwa : w ∈ a.nodes
        · obtain ⟨h3, h4⟩ := h2.1 (hwm hwa)
          obtain ⟨-, v, hv, rfl⟩ := h3
          exact ⟨v, (hb.measured v).2 ⟨hv, fun hvo => h4 (List.mem_map_of_mem hvo)⟩, rfl⟩
        · rcases h1 with h1 | ⟨v, hv, rfl⟩
          · exact absurd h1 hwa
          · refine ⟨v, (hb.measured v).2 ⟨hv, fun hvo => ?_⟩, rfl⟩
            exact hwa (h2.2 (List.mem_map_of_mem hvo)).1
    · have hw' : w ∈ ins := hw
      change w ∈ a.nodes ∪ nodes2
      rw [hmemi] at hw'
      rw [Finset.mem_union, hmem2]
      rcases hw' with ⟨h, -⟩ | ⟨h, -⟩
      · exact Or.inl (ha.input_mem h)
      · obtain ⟨v, hv, -, e⟩ := hmapi _ h
        exact Or.inr ⟨v, hv, e⟩
    · have hw' : w ∈ outs := hw
      change w ∈ a.nodes ∪ nodes2
      rw [hmemo] at hw'
      rw [Finset.mem_union, hmem2]
      rcases hw' with ⟨h, -⟩ | ⟨h, -⟩
      · exact Or.inl (ha.output_mem h)
      · obtain ⟨v, hv, -, e⟩ := hmapo _ h
        exact Or.inr ⟨v, hv, e⟩
    · exact hnodup a.inputs b.inputs ani bni (fun w hw => ha.input_mem hw) fun v hv => hb.input_mem hv
    · exact hnodup a.outputs b.outputs ano bno (fun w hw => ha.output_mem hw) fun v hv => hb.output_mem hv
    · intro w hw
      rcases q3 w hw with h | h
      · have := (PyDict.get?_isSome_iff _ _).2 h
        rw [hc0get] at this
        by_contra hwo
        rw [if_neg hwo] at this
        simp at this
      · exact h
  refine ⟨og, ?_, ⟨hpost, ?_, ?_, ?_, q2⟩, ⟨?_, ?_, ?_, ?_, ?_, ?_, ?_, ?_, ?_⟩, rfl⟩
  · unfold compose
    have hlen : mapping.length = ((mapping.map Prod.snd).toFinset).card := by
      rw [List.toFinset_card_of_nodup hvd, List.length_map]
    simp only [hs, not_true_eq_false, if_false, ← hlen, ne_eq, bind, Except.bind, pure, Except.pure, r1]
    rw [if_neg hne]
    have hcm : mapping ++ ((b.nodes \ mapping.keys.toFinset).sort (· ≤ ·)).zipIdx
        ((a.nodes ∪ (mapping.map Prod.snd).toFinset).sup id + 1) = completeMap a b mapping := rfl
    rw [hcm, ← hn2, ← hmg]
    have he' := he
    simp only [bind, Except.bind, pure, Except.pure] at he' hsft
    rw [he']
    dsimp only
    rw [hi]
    dsimp only
    rw [ho]
    dsimp only
    rw [hsft]
    dsimp only
    rw [q1]
    dsimp only
    rw [show (⟨a.nodes ∪ nodes2, edges, ins, outs, meas, cl⟩ : OpenGraph).postInit = .ok () from hpost]
  · intro x y hxy
    change x ∈ a.nodes ∪ nodes2 ∧ y ∈ a.nodes ∪ nodes2
    rw [Finset.mem_union, Finset.mem_union, hmem2, hmem2]
    rcases List.mem_append.1 (show (x, y) ∈ edges from hxy) with h | h
    · exact ⟨Or.inl (ha.edge_mem x y h).1, Or.inl (ha.edge_mem x y h).2⟩
    · obtain ⟨e, he1, he2⟩ := List.mem_map.1 (List.mem_filter.1 h).1
      cases he2
      exact ⟨Or.inr ⟨_, (hb.edge_mem _ _ he1).1, rfl⟩, Or.inr ⟨_, (hb.edge_mem _ _ he1).2, rfl⟩⟩
  · change edges.Pairwise _
    rw [hedges, List.pairwise_append]
    refine ⟨ha.edge_once, ?_, ?_⟩
    · refine List.Pairwise.filter _ (List.pairwise_map.2 ?_)
      refine (List.Pairwise.imp_of_mem ?_ hb.edge_once)
      rintro ⟨x1, x2⟩ ⟨y1, y2⟩ hx hy ⟨h1, h2⟩
      have hx' := hb.edge_mem _ _ hx
      have hy' := hb.edge_mem _ _ hy
      constructor
      · intro e
        simp only [Prod.mk.injEq] at e
        exact h1 (by rw [hinj _ hx'.1 _ hy'.1 e.1, hinj _ hx'.2 _ hy'.2 e.2])
      · intro e
        simp only [Prod.mk.injEq] at e
        exact h2 (by rw [hinj _ hx'.1 _ hy'.2 e.1, hinj _ hx'.2 _ hy'.1 e.2])
    · rintro e he1 e' he2
      have h2 := of_decide_eq_true (List.mem_filter.1 he2).2
      constructor
      · rintro rfl; exact h2.1 he1
      · rintro rfl; exact h2.2 he1
  · exact g2 (by rw [r2]; exact ha.meas_keys)
  · intro w
    change w ∈ a.nodes ∪ nodes2 ↔ _
    rw [Finset.mem_union, hmem2]
  · intro x y
    unfold OpenGraph.Adj
    change ((x, y) ∈ edges ∨ (y, x) ∈ edges) ↔ _
    have hE : ∀ x y, (x, y) ∈ edges ↔ (x, y) ∈ a.edges ∨
        ((∃ e ∈ b.edges, (f e.1, f e.2) = (x, y)) ∧ (x, y) ∉ a.edges ∧ (y, x) ∉ a.edges) := by
      intro x y
      rw [hedges, List.mem_append, List.mem_filter, List.mem_map]
      simp
    rw [hE, hE]
    constructor
    · rintro ((h | ⟨⟨e, h, h'⟩, -⟩) | (h | ⟨⟨e, h, h'⟩, -⟩))
      · exact Or.inl (Or.inl h)
      · cases h'; exact Or.inr ⟨e.1, e.2, Or.inl h, rfl, rfl⟩
      · exact Or.inl (Or.inr h)
      · cases h'; exact Or.inr ⟨e.2, e.1, Or.inr h, rfl, rfl⟩
    · rintro ((h | h) | ⟨v, w, h | h, rfl, rfl⟩)
      · exact Or.inl (Or.inl h)
      · exact Or.inr (Or.inl h)
      · by_cases h1 : (f v, f w) ∈ a.edges
        · exact Or.inl (Or.inl h1)
        by_cases h2 : (f w, f v) ∈ a.edges
        · exact Or.inr (Or.inl h2)
        exact Or.inl (Or.inr ⟨⟨(v, w), h, rfl⟩, h1, h2⟩)
      · by_cases h1 : (f v, f w) ∈ a.edges
        · exact Or.inl (Or.inl h1)
        by_cases h2 : (f w, f v) ∈ a.edges
        · exact Or.inr (Or.inl h2)
        exact Or.inr (Or.inr ⟨⟨(w, v), h, rfl⟩, h2, h1⟩)
  · change ins = _
    rw [hins]
    simp only [hmerged]
  · change outs = _
    rw [houts]
    simp only [hmerged]
  · exact m1
  · intro u m hu hnm
    change meas.get? u = some m
    have hua := ((ha.measured u).1 (by rw [hu]; rfl)).1
    rw [m2 u fun v hv hvu => absurd ⟨hua, v, hv, hvu⟩ hnm, hu]
    have : preim mapping u = none := by
      cases hp : preim mapping u with
      | none => rfl
      | some v =>
        have h1 := preim_some hk hp
        refine absurd ⟨hua, v, hs (List.mem_toFinset.2 ((PyDict.get?_isSome_iff _ _).1 (by rw [h1]; rfl))), ?_⟩ hnm
        rw [hf]; exact renameOf_mapping h1
    rw [this]; rfl
  · intro v hv m hm hnone
    change meas.get? (f v) = some (m.after (b.cliffords.get? v))
    have hua := ((ha.measured (f v)).1 (by rw [hm]; rfl)).1
    rw [m2 (f v) fun v' hv' e => by rw [hinj v' hv' v hv e]; exact hnone, hm]
    have : preim mapping (f v) = some v := by
      cases hp : preim mapping (f v) with
      | none =>
        exfalso
        cases hmv : mapping.get? v with
        | none => exact (renameOf_fresh (self := a) hk hs hv hmv).1 hua
        | some u =>
          refine preim_none hp v ?_
          rw [hmv, hf, renameOf_mapping hmv]
      | some v' =>
        have h1 := preim_some hk hp
        have hv' : v' ∈ b.nodes := hs (List.mem_toFinset.2 ((PyDict.get?_isSome_iff _ _).1 (by rw [h1]; rfl)))
        have h2 : f v' = f v := by rw [hf]; exact renameOf_mapping h1
        rw [hinj v' hv' v hv h2]
    rw [this]; rfl
  · intro w hw hno
    change cl.get? w = a.cliffords.get? w
    rw [q5 w fun v hv => hno v (hcl v hv), hc0get, if_pos hw]
  · intro v hv hvo
    change cl.get? (f v) = _
    have hc0' := hc0get (f v)
    rw [if_pos hvo] at hc0'
    cases hbv : b.cliffords.get? v with
    | some d =>
      rw [q4 v d hbv hvo, hc0']
      cases a.cliffords.get? (f v) with
      | none => exact congrArg some (mul_I' d)
      | some c => rfl
    | none =>
      rw [q5 (f v) ?_, hc0']
      · cases a.cliffords.get? (f v) <;> rfl
      · intro v' hv' e
        have := hinj v' (hcl v' hv') v hv e
        subst this
        rw [PyDict.get?_eq_none_iff] at hbv
        exact hbv hv'

end OpenGraph
end Graphix
