import Verif.Model.OgMap
import Verif.Props.PatternMap
import Verif.Props.PatternParam
import Verif.Props.ToPattern
import Verif.Props.Extract
import Verif.Props.ParamCircuit

/-! # Lemmas about measurement-wise transformations of open graphs -/

namespace Graphix
namespace OpenGraph

/-- Two open graphs with the same graph, inputs, outputs and output Cliffords, whose measured nodes are the same. -/
structure SameShape (og og' : OpenGraph) : Prop where
  nodes : og'.nodes = og.nodes
  edges : og'.edges = og.edges
  inputs : og'.inputs = og.inputs
  outputs : og'.outputs = og.outputs
  cliffords : og'.cliffords = og.cliffords
  keys : og'.measurements.keys = og.measurements.keys

theorem SameShape.adj {og og' : OpenGraph} (h : og.SameShape og') (u v : ℕ) : og'.Adj u v ↔ og.Adj u v := by
  unfold OpenGraph.Adj; rw [h.edges]

theorem SameShape.inOdd {og og' : OpenGraph} (h : og.SameShape og') (s : Finset ℕ) (v : ℕ) : og'.InOdd s v ↔ og.InOdd s v := by
  unfold OpenGraph.InOdd
  rw [Finset.filter_congr fun x _ => h.adj v x]

theorem SameShape.valid {og og' : OpenGraph} (h : og.SameShape og') (hv : og.Valid) : og'.Valid := by
  obtain ⟨n, e, i, o, m, c⟩ := og
  obtain ⟨n', e', i', o', m', c'⟩ := og'
  obtain ⟨h1, h2, h3, h4, h5, h6⟩ := h
  dsimp only at h1 h2 h3 h4 h5 h6
  subst h1 h2 h3 h4 h5
  refine ⟨?_, hv.edge_mem, hv.edge_once, ?_, hv.clif_keys⟩
  · have := hv.post
    unfold postInit at this ⊢
    dsimp only at this ⊢
    rw [h6]; exact this
  · dsimp only; rw [h6]; exact hv.meas_keys

theorem SameShape.bareCmds {og og' : OpenGraph} (h : og.SameShape og') (g : Measurement → Measurement)
    (hg : ∀ u ∈ og.nodes, u ∉ og.outputs → og'.measOf u = g (og.measOf u)) :
    og'.bareCmds = og.bareCmds.map (Command.onMeas g) := by
  unfold OpenGraph.bareCmds
  rw [h.nodes, h.edges, h.inputs, h.outputs, h.cliffords]
  simp only [List.map_append, List.map_map]
  congr 3
  refine List.map_congr_left fun u hu => ?_
  rw [Finset.mem_sort, Finset.mem_sdiff, List.mem_toFinset] at hu
  simp only [Function.comp, Command.onMeas, hg u hu.1 hu.2]

end OpenGraph

theorem PyDict.get?_mapVal {α β γ : Type} [DecidableEq α] (d : PyDict α β) (g : β → γ) (k : α) :
    PyDict.get? (d.map fun kv => (kv.1, g kv.2)) k = (PyDict.get? d k).map g := by
  induction d with
  | nil => rfl
  | cons kv d ih =>
    obtain ⟨k', v⟩ := kv
    rw [List.map_cons, PyDict.get?_cons, PyDict.get?_cons]
    split_ifs
    · rfl
    · exact ih

theorem PyDict.keys_mapVal {α β γ : Type} (d : PyDict α β) (g : β → γ) :
    PyDict.keys (d.map fun kv => (kv.1, g kv.2)) = PyDict.keys d := by
  simp [PyDict.keys]

theorem mapVal_ok {α β : Type} {f : α → Except PyErr β} {g : α → β} (l : List (ℕ × α)) (hf : ∀ kv ∈ l, f kv.2 = .ok (g kv.2)) :
    (l.mapM (m := Except PyErr) fun kv => do
      let m ← f kv.2
      return (kv.1, m)) = .ok (l.map fun kv => (kv.1, g kv.2)) := by
  induction l with
  | nil => rfl
  | cons kv l ih =>
    rw [List.mapM_cons, ih fun kv h => hf kv (by simp [h]), hf kv (by simp)]
    rfl

theorem mapVal_error {α β : Type} {f : α → Except PyErr β} {e : PyErr} (l : List (ℕ × α)) (he : ∀ m e', f m = .error e' → e' = e)
    {kv : ℕ × α} (hkv : kv ∈ l) (hf : f kv.2 = .error e) :
    (l.mapM (m := Except PyErr) fun kv => do
      let m ← f kv.2
      return (kv.1, m)) = .error e := by
  induction l with
  | nil => cases hkv
  | cons kv' l ih =>
    rw [List.mapM_cons]
    cases h : f kv'.2 with
    | error e' => rw [he _ _ h]; rfl
    | ok m =>
      rcases List.mem_cons.1 hkv with rfl | hkv
      · rw [h] at hf; cases hf
      · rw [ih hkv]; rfl

/-- The open graph where `g` is applied to the measurements. -/
def OpenGraph.onMeas (og : OpenGraph) (g : Measurement → Measurement) : OpenGraph :=
  { og with measurements := og.measurements.map fun kv => (kv.1, g kv.2) }

theorem OpenGraph.onMeas_shape (og : OpenGraph) (g : Measurement → Measurement) : og.SameShape (og.onMeas g) :=
  ⟨rfl, rfl, rfl, rfl, rfl, PyDict.keys_mapVal _ _⟩

theorem OpenGraph.map_ok {og : OpenGraph} (hv : og.Valid) {f : Measurement → Except PyErr Measurement} {g : Measurement → Measurement}
    (hf : ∀ kv ∈ og.measurements, f kv.2 = .ok (g kv.2)) : og.map f = .ok (og.onMeas g) := by
  have h := ((og.onMeas_shape g).valid hv).post
  unfold OpenGraph.map
  rw [mapVal_ok _ hf]
  dsimp only [bind, Except.bind, pure, Except.pure]
  unfold OpenGraph.onMeas at h ⊢
  rw [h]

theorem OpenGraph.onMeas_linMap {og : OpenGraph} (hv : og.Valid) {g : Measurement → Measurement}
    (hg : ∀ kv ∈ og.measurements, observable (g kv.2) = observable kv.2) : OpPhaseEq (og.onMeas g).linMap og.linMap := by
  have hm : ∀ u ∈ og.nodes, u ∉ og.outputs → ∃ m, og.measurements.get? u = some m := fun u h1 h2 => by
    obtain ⟨l, m, h, -⟩ := (OpenGraph.exists_label hv.post u).2 ⟨h1, h2⟩
    exact ⟨m, h⟩
  have hb : (og.onMeas g).bareCmds = og.bareCmds.map (Command.onMeas g) := by
    refine (og.onMeas_shape g).bareCmds g fun u h1 h2 => ?_
    obtain ⟨m, h⟩ := hm u h1 h2
    simp only [OpenGraph.measOf, OpenGraph.onMeas, PyDict.get?_mapVal, h, Option.map_some, Option.getD_some]
  have := onMeas_semCmds (g := g) (fun _ => false) og.bareCmds ?_
  · unfold OpenGraph.linMap
    rw [hb]; exact this
  · intro n m s t hmem
    unfold OpenGraph.bareCmds at hmem
    simp only [List.mem_append, List.mem_map, reduceCtorEq, and_false, exists_false, false_or, or_false] at hmem
    obtain ⟨u, hu, he⟩ := hmem
    rw [Finset.mem_sort, Finset.mem_sdiff, List.mem_toFinset] at hu
    obtain ⟨m', h⟩ := hm u hu.1 hu.2
    simp only [OpenGraph.measOf, h, Option.getD_some, Command.M.injEq] at he
    obtain ⟨-, rfl, -⟩ := he
    exact hg _ (PyDict.mem_of_get? h)

/-! ### Refining labels -/

/-- The axis belongs to the plane. -/
def Plane.Contains (p : Plane) (a : Axis) : Prop := a = p.cos ∨ a = p.sin

/-- The label `l'` is `l`, or an axis of the plane `l`. -/
def Label.Refines (l l' : Label) : Prop := l' = l ∨ ∃ p a, l = .plane p ∧ l' = .axis a ∧ p.Contains a

/-- The second open graph has the same shape, and the label of every node is the same or has become an axis of its plane. -/
structure OpenGraph.Refined (og og' : OpenGraph) : Prop extends OpenGraph.SameShape og og' where
  label : ∀ v l', og'.HasLabel v l' → ∃ l, og.HasLabel v l ∧ l.Refines l'

theorem OpenGraph.Refined.old {og og' : OpenGraph} (h : og.Refined og') {v : ℕ} {a : Axis} (hl : og.HasLabel v (.axis a)) :
    og'.HasLabel v (.axis a) := by
  obtain ⟨m, hm, ha⟩ := hl
  have hk : v ∈ og'.measurements.keys := by rw [h.keys]; exact (PyDict.get?_isSome_iff _ _).1 (by rw [hm]; rfl)
  obtain ⟨m', hm'⟩ := Option.isSome_iff_exists.1 ((PyDict.get?_isSome_iff _ _).2 hk)
  obtain ⟨l, hl, hr⟩ := h.label v m'.toPlaneOrAxis ⟨m', hm', rfl⟩
  have : l = .axis a := hl.unique ⟨m, hm, ha⟩
  subst this
  rcases hr with hr | ⟨p, b, hp, -⟩
  · exact ⟨m', hm', hr⟩
  · cases hp

theorem OpenGraph.Refined.plane {og og' : OpenGraph} (h : og.Refined og') {v : ℕ} {p : Plane} (hl : og'.HasLabel v (.plane p)) :
    og.HasLabel v (.plane p) := by
  obtain ⟨l, hl, hr⟩ := h.label v _ hl
  rcases hr with hr | ⟨q, b, -, hp, -⟩
  · rw [hr]; exact hl
  · cases hp

theorem OpenGraph.Refined.axis {og og' : OpenGraph} (h : og.Refined og') {v : ℕ} {a : Axis} (hl : og'.HasLabel v (.axis a)) :
    og.HasLabel v (.axis a) ∨ ∃ p, og.HasLabel v (.plane p) ∧ p.Contains a := by
  obtain ⟨l, hl, hr⟩ := h.label v _ hl
  rcases hr with hr | ⟨q, b, rfl, hp, hc⟩
  · rw [hr]; exact Or.inl hl
  · cases hp; exact Or.inr ⟨q, hl, hc⟩

theorem OpenGraph.Refined.flowOf {og og' : OpenGraph} (h : og.Refined og') (hv : og.Valid) {p : ℕ → Finset ℕ} {lt : ℕ → ℕ → Prop}
    (hf : IsPauliFlowOf og p lt) : IsPauliFlowOf og' p lt := by
  have hno : ∀ {v P}, og.HasLabel v (.plane P) → ∀ a, ¬ og.HasLabel v (.axis a) := fun h1 a h2 => by cases h1.unique h2
  constructor
  · exact hf.irrefl
  · exact hf.trans
  · rw [h.nodes, h.outputs, h.inputs]; exact hf.image
  · rw [h.nodes, h.outputs]
    exact fun u h1 h2 v h3 h4 h5 h6 => hf.p1 u h1 h2 v h3 h4 (fun h' => h5 (h.old h')) (fun h' => h6 (h.old h'))
  · rw [h.nodes, h.outputs]
    exact fun u h1 h2 v h3 h4 h5 h6 h7 => hf.p2 u h1 h2 v h3 ((h.inOdd _ _).1 h4) h5 (fun h' => h6 (h.old h')) (fun h' => h7 (h.old h'))
  · rw [h.nodes, h.outputs]
    intro u h1 h2 v h3 h4 h5
    rw [h.inOdd]
    rcases h.axis h4 with h4 | ⟨P, hP, hc⟩
    · exact hf.p3 u h1 h2 v h3 h4 h5
    · exact iff_of_false (fun h' => h5 (hf.p1 u h1 h2 v h' h3 (hno hP _) (hno hP _)))
        (fun h' => h5 (hf.p2 u h1 h2 v ((OpenGraph.exists_label hv.post v).1 ⟨_, hP⟩).1 h' h3 (hno hP _) (hno hP _)))
  · rw [h.nodes, h.outputs]
    exact fun u h1 h2 h3 => by rw [h.inOdd]; exact hf.p4 u h1 h2 (h.plane h3)
  · rw [h.nodes, h.outputs]
    exact fun u h1 h2 h3 => by rw [h.inOdd]; exact hf.p5 u h1 h2 (h.plane h3)
  · rw [h.nodes, h.outputs]
    exact fun u h1 h2 h3 => by rw [h.inOdd]; exact hf.p6 u h1 h2 (h.plane h3)
  · rw [h.nodes, h.outputs]
    intro u h1 h2 h3
    rw [h.inOdd]
    rcases h.axis h3 with h3 | ⟨P, hP, hc⟩
    · exact hf.p7 u h1 h2 h3
    · cases P with
      | XY => exact (hf.p4 u h1 h2 hP).2
      | YZ => rcases hc with hc | hc <;> cases hc
      | XZ => exact (hf.p5 u h1 h2 hP).2
  · rw [h.nodes, h.outputs]
    intro u h1 h2 h3
    rcases h.axis h3 with h3 | ⟨P, hP, hc⟩
    · exact hf.p8 u h1 h2 h3
    · cases P with
      | XY => rcases hc with hc | hc <;> cases hc
      | YZ => exact (hf.p6 u h1 h2 hP).1
      | XZ => exact (hf.p5 u h1 h2 hP).1
  · rw [h.nodes, h.outputs]
    intro u h1 h2 h3
    rw [h.inOdd]
    rcases h.axis h3 with h3 | ⟨P, hP, hc⟩
    · exact hf.p9 u h1 h2 h3
    · cases P with
      | XY => have := hf.p4 u h1 h2 hP; tauto
      | YZ => have := hf.p6 u h1 h2 hP; tauto
      | XZ => rcases hc with hc | hc <;> cases hc

theorem OpenGraph.Refined.flow' {og og' : OpenGraph} (h : og.Refined og') (hpost : og.postInit = .ok ()) {corr : PyDict ℕ (Finset ℕ)}
    {layers : List (Finset ℕ)} (hf : IsPauliFlow ⟨og, corr, layers⟩) : IsPauliFlow ⟨og', corr, layers⟩ := by
  have hno : ∀ {v P}, og.HasLabel v (.plane P) → ∀ a, ¬ og.HasLabel v (.axis a) := fun h1 a h2 => by cases h1.unique h2
  have hb : FlowBase ⟨og', corr, layers⟩ := by
    have h1 := hf.domain
    have h2 := hf.image
    have h3 := hf.layers
    refine ⟨?_, ?_, ?_, ?_, ?_, ?_⟩ <;> dsimp only at *
    · rw [h.nodes, h.outputs]; exact h1
    · rw [h.nodes, h.inputs]; exact h2
    · rw [h.outputs]; exact h3.outputs
    · exact h3.nonempty
    · exact h3.disjoint
    · rw [h.nodes]; exact h3.cover
  refine { hb with p1 := ?_, p2 := ?_, p3 := ?_, p4 := ?_, p5 := ?_, p6 := ?_, p7 := ?_, p8 := ?_, p9 := ?_ } <;> dsimp only
  · exact fun u s hs v h3 h4 h5 h6 => hf.p1 u s hs v h3 h4 (fun h' => h5 (h.old h')) (fun h' => h6 (h.old h'))
  · rw [h.nodes]
    exact fun u s hs v h3 h4 h5 h6 h7 => hf.p2 u s hs v h3 ((h.inOdd _ _).1 h4) h5 (fun h' => h6 (h.old h')) (fun h' => h7 (h.old h'))
  · intro u s hs v h3 h4 h5
    rw [h.inOdd]
    rcases h.axis h4 with h4 | ⟨P, hP, hc⟩
    · exact hf.p3 u s hs v h3 h4 h5
    · exact iff_of_false (fun h' => h5 (hf.p1 u s hs v h' h3 (hno hP _) (hno hP _)))
        (fun h' => h5 (hf.p2 u s hs v ((OpenGraph.exists_label hpost v).1 ⟨_, hP⟩).1 h' h3 (hno hP _) (hno hP _)))
  · exact fun u s hs h3 => by rw [h.inOdd]; exact hf.p4 u s hs (h.plane h3)
  · exact fun u s hs h3 => by rw [h.inOdd]; exact hf.p5 u s hs (h.plane h3)
  · exact fun u s hs h3 => by rw [h.inOdd]; exact hf.p6 u s hs (h.plane h3)
  · intro u s hs h3
    rw [h.inOdd]
    rcases h.axis h3 with h3 | ⟨P, hP, hc⟩
    · exact hf.p7 u s hs h3
    · cases P with
      | XY => exact (hf.p4 u s hs hP).2
      | YZ => rcases hc with hc | hc <;> cases hc
      | XZ => exact (hf.p5 u s hs hP).2
  · intro u s hs h3
    rcases h.axis h3 with h3 | ⟨P, hP, hc⟩
    · exact hf.p8 u s hs h3
    · cases P with
      | XY => rcases hc with hc | hc <;> cases hc
      | YZ => exact (hf.p6 u s hs hP).1
      | XZ => exact (hf.p5 u s hs hP).1
  · intro u s hs h3
    rw [h.inOdd]
    rcases h.axis h3 with h3 | ⟨P, hP, hc⟩
    · exact hf.p9 u s hs h3
    · cases P with
      | XY => have := hf.p4 u s hs hP; dsimp only at this; tauto
      | YZ => have := hf.p6 u s hs hP; dsimp only at this; tauto
      | XZ => rcases hc with hc | hc <;> cases hc

theorem OpenGraph.Refined.flow {og og' : OpenGraph} (h : og.Refined og') (hv : og.Valid) {corr : PyDict ℕ (Finset ℕ)}
    {layers : List (Finset ℕ)} (hf : IsPauliFlow ⟨og, corr, layers⟩) : IsPauliFlow ⟨og', corr, layers⟩ := h.flow' hv.post hf

/-- The label of the measurement is refined when Pauli measurements are inferred. -/
theorem InferSpec.refines {rel abs' : ℝ} {m m' : Measurement} (h : m.toPauliOrBlochTol rel abs' = .ok m') (hr : 0 ≤ rel) (ha : 0 ≤ abs') :
    m.toPlaneOrAxis.Refines m'.toPlaneOrAxis := by
  cases m with
  | pauli m => cases h; exact Or.inl rfl
  | bloch m =>
    simp only [Measurement.toPauliOrBlochTol, toPauliOrNoneTol_eq m hr ha, bind, Except.bind, pure, Except.pure] at h
    split at h
    · cases h; exact Or.inl rfl
    · next heq =>
      cases h
      split at heq
      · cases heq
        refine Or.inr ⟨m.plane, _, rfl, rfl, ?_⟩
        unfold quarterPauli
        dsimp only
        split_ifs
        · exact Or.inl rfl
        · exact Or.inr rfl
      · cases heq

/-- The plane of the Bloch measurement contains the axis of the Pauli measurement. -/
theorem toBloch_refines (m : Measurement) : (Measurement.bloch m.toBloch).toPlaneOrAxis.Refines m.toPlaneOrAxis := by
  cases m with
  | bloch m => exact Or.inl rfl
  | pauli m =>
    obtain ⟨a, s⟩ := m
    refine Or.inr ⟨_, _, rfl, rfl, ?_⟩
    cases a <;> cases s <;> simp [Plane.Contains, Measurement.toBloch, PauliMeasurement.toBloch, Plane.cos, Plane.sin]

end Graphix
