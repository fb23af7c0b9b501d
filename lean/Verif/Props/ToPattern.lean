import Verif.Model.ToPattern
import Verif.Props.FindCflow
import Verif.Props.FindGpflow
import Verif.Props.Determinism

/-!
# C53: `OpenGraph.to_pattern`
-/

namespace Graphix

/-- A causal flow of a graph without self-loops is a Pauli flow. -/
theorem IsCausalFlow.pauli {f : Flow} (hv : f.og.Valid) (hloop : ∀ v, (v, v) ∉ f.og.edges) (h : IsCausalFlow f) : IsPauliFlow f := by
  have hlab : ∀ v l, f.og.HasLabel v l → l = .plane .XY := by
    intro v l hl
    obtain ⟨h1, h2⟩ := (OpenGraph.exists_label hv.post v).1 ⟨l, hl⟩
    exact hl.unique (h.xy v h1 h2)
  have hodd : ∀ w v, f.og.InOdd {w} v ↔ f.og.Adj v w := by
    intro w v
    unfold OpenGraph.InOdd
    by_cases hw : f.og.Adj v w
    · simp [Finset.filter_singleton, hw]
    · simp [Finset.filter_singleton, hw]
  refine { h.toFlowBase with p1 := ?_, p2 := ?_, p3 := ?_, p4 := ?_, p5 := ?_, p6 := ?_, p7 := ?_, p8 := ?_, p9 := ?_ }
  · intro u s hs v hvs _ _ _
    obtain ⟨w, rfl, -, hb, -⟩ := h.single u s hs
    rw [Finset.mem_singleton] at hvs
    exact hvs ▸ hb
  · intro u s hs v hvn hvs hne _ _
    obtain ⟨w, rfl, -, -, hb⟩ := h.single u s hs
    exact hb v ((hodd w v).1 hvs) hne hvn
  · intro u s _ v _ hl; exact absurd (hlab v _ hl) (by simp)
  · intro u s hs _
    obtain ⟨w, rfl, ha, -, -⟩ := h.single u s hs
    refine ⟨?_, (hodd w u).2 ha⟩
    rw [Finset.mem_singleton]
    rintro rfl
    rcases ha with ha | ha <;> exact hloop _ ha
  · intro u s _ hl; exact absurd (hlab u _ hl) (by simp)
  · intro u s _ hl; exact absurd (hlab u _ hl) (by simp)
  · intro u s _ hl; exact absurd (hlab u _ hl) (by simp)
  · intro u s _ hl; exact absurd (hlab u _ hl) (by simp)
  · intro u s _ hl; exact absurd (hlab u _ hl) (by simp)

theorem OpenGraph.downcastMeasurements_spec (l : PyDict ℕ Measurement) :
    (OpenGraph.downcastMeasurements l = .ok l ∧ ∀ kv ∈ l, ∃ a, kv.2 = .bloch a) ∨
    (OpenGraph.downcastMeasurements l = .error .typeError) := by
  induction l with
  | nil => exact Or.inl ⟨rfl, by simp⟩
  | cons kv l ih =>
    obtain ⟨n, m⟩ := kv
    cases m with
    | pauli m => exact Or.inr rfl
    | bloch m =>
      rcases ih with ⟨h1, h2⟩ | h1
      · refine Or.inl ⟨?_, ?_⟩
        · simp only [downcastMeasurements, Measurement.downcastBloch, h1, bind, Except.bind, pure, Except.pure]
        · intro kv hkv
          rcases List.mem_cons.1 hkv with rfl | hkv
          · exact ⟨m, rfl⟩
          · exact h2 kv hkv
      · right
        simp only [downcastMeasurements, Measurement.downcastBloch, h1, bind, Except.bind]

/-- **C53.** For every open graph: if it has a Pauli flow (in particular, if it has a causal flow or a gflow), `to_pattern` returns
a pattern that is runnable, deterministic, and implements the map of the open graph in every branch; otherwise it raises
`OpenGraphError`. -/
theorem C53_to_pattern (og : OpenGraph) (hv : og.Valid) (hloop : ∀ v, (v, v) ∉ og.edges) (ord : SetOrd) (hord : ord.Valid)
    (mmo : MulOrd) (hmmo : mmo.Valid) :
    (HasPauliFlow og ∧ ∃ q, og.toPattern ord mmo = .ok q ∧ Implements q og) ∨
    (¬ HasPauliFlow og ∧ og.toPattern ord mmo = .error .openGraphError) := by
  have hloop' : ∀ e ∈ og.edges, e.1 ≠ e.2 := by
    rintro ⟨a, b⟩ he (rfl : a = b); exact hloop a he
  -- the second half: search of a Pauli flow
  have hsecond : ∀ e : Except PyErr Pattern, (e = do
      match ← og.toPauliflowOrNone ord mmo with
      | some f => do
        let xz ← f.toXZPauli ord
        xz.toPattern ord none
      | none => throw .openGraphError) →
      (HasPauliFlow og ∧ ∃ q, e = .ok q ∧ Implements q og) ∨ (¬ HasPauliFlow og ∧ e = .error .openGraphError) := by
    rintro e rfl
    rcases Aog.toFlowOrNone_spec (a := ⟨og, false⟩) hv hloop (by simp) hord hmmo with ⟨f, h1, h2, h3, h4, -⟩ | ⟨h1, h2⟩
    · have h1 : og.toPauliflowOrNone ord mmo = .ok (some f) := h1
      have h2 : f.og = og := h2
      have hv' : f.og.Valid := by rw [h2]; exact hv
      obtain ⟨xz, g1, g2, g3, g4, g5⟩ := C30_pauliflow f hv' (by rw [h2]; exact hloop') h3 ord hord ((C29_pauliflow f hv' h3 ord hord).2 h4)
      obtain ⟨q, q1, q2⟩ := g5 none (by simp)
      refine Or.inl ⟨h2 ▸ h4.has, q, ?_, ?_⟩
      · rw [h1]; simp only [bind, Except.bind, g1, q1]
      · rw [← h2, ← g2]; exact q2
    · have h1 : og.toPauliflowOrNone ord mmo = .ok none := h1
      refine Or.inr ⟨h2, ?_⟩
      rw [h1]; rfl
  unfold OpenGraph.toPattern
  rcases OpenGraph.downcastMeasurements_spec og.measurements with ⟨h1, hpl⟩ | h1
  · have hd : og.downcastBloch = .ok og := by
      simp only [OpenGraph.downcastBloch, h1, hv.post, bind, Except.bind, pure, Except.pure]
    rw [hd]
    rcases C27_find_cflow og hv hpl ord hord with ⟨f, e1, e2, e3, e4, -⟩ | ⟨e1, -⟩
    · left
      have hv' : f.og.Valid := by rw [e2]; exact hv
      obtain ⟨xz, g1, g2, g3, g4, g5⟩ := C30_causalflow f hv' (by rw [e2]; exact hloop') e3 ord hord ((C29_causalflow f hv' e3 ord hord).2 e4)
      obtain ⟨q, q1, q2⟩ := g5 none (by simp)
      refine ⟨e2 ▸ (e4.pauli hv' (by rw [e2]; exact hloop)).has, q, ?_, ?_⟩
      · simp only [e1, bind, Except.bind, g1, q1]
      · rw [← e2, ← g2]; exact q2
    · simp only [e1]
      exact hsecond _ rfl
  · have hd : og.downcastBloch = .error .typeError := by
      simp only [OpenGraph.downcastBloch, h1, bind, Except.bind]
    rw [hd]
    exact hsecond _ rfl

/-- The path with one Pauli measurement has a Pauli flow; the pattern exists. -/
example : ∃ q, exFlowP.og.toPattern exOrd exMmo = .ok q ∧ Implements q exFlowP.og := by
  rcases C53_to_pattern exFlowP.og (exOg_valid _) (fun v hv => exOg_loop _ _ hv rfl) exOrd exOrd_valid exMmo exMmo_valid with h | h
  · exact h.2
  · exact absurd exFlowP_pauli.has h.1

/-- With planar measurements, the pattern comes from the causal flow. -/
example : ∃ q, (exOg exLabels).toPattern exOrd exMmo = .ok q ∧ Implements q (exOg exLabels) := by
  rcases C53_to_pattern (exOg exLabels) (exOg_valid _) (fun v hv => exOg_loop _ _ hv rfl) exOrd exOrd_valid exMmo exMmo_valid with h | h
  · exact h.2
  · exact absurd (IsPauliFlow.has (f := exFlow exLabels) (IsCausalFlow.pauli (exOg_valid _) (fun v hv => exOg_loop _ _ hv rfl)
      ((C29_causalflow (exFlow exLabels) (exOg_valid _) (by simp [exFlow, PyDict.keys]) exOrd exOrd_valid).1 rfl))) h.1

/-- Two inputs joined to one output, one of them measured: no flow, `OpenGraphError`. -/
example : (OpenGraph.mk {0, 1} [(0, 1)] [0, 1] [1] [(0, .bloch ⟨1/4, .XY⟩)] []).toPattern exOrd exMmo = .error .openGraphError := by
  have hv : (OpenGraph.mk {0, 1} [(0, 1)] [0, 1] [1] [(0, .bloch ⟨1/4, .XY⟩)] []).Valid :=
    ⟨rfl, by simp, by simp, by simp [PyDict.keys], by simp [PyDict.keys]⟩
  rcases C53_to_pattern _ hv (by simp) exOrd exOrd_valid exMmo exMmo_valid with ⟨⟨p, lt, hp⟩, -⟩ | h
  · exfalso
    obtain ⟨-, h⟩ := hp.p4 0 (by simp) (by simp) ⟨_, rfl, rfl⟩
    obtain ⟨w, hw⟩ := Finset.card_pos.1 h.pos
    rw [Finset.mem_filter] at hw
    have := hp.image 0 (by simp) (by simp) w hw.1
    simp only [Finset.mem_insert, Finset.mem_singleton, List.mem_cons, List.not_mem_nil, or_false] at this
    exact this.2 this.1
  · exact h.2

end Graphix
