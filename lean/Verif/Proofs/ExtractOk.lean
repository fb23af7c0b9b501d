import Verif.Proofs.ExtractExt

/-! The extraction succeeds on a focused flow. -/

namespace Graphix

open scoped symmDiff

/-- The test of one node. -/
def FocusTest (og : OpenGraph) (s : Finset ℕ) (v : ℕ) (l : Label) : Prop :=
  (v ∈ s → l = .plane .XY ∨ l = .axis .X ∨ l = .axis .Y) ∧
    (og.InOdd s v → l = .plane .XZ ∨ l = .plane .YZ ∨ l = .axis .Y ∨ l = .axis .Z) ∧
    (l = .axis .Y → (v ∈ s ↔ og.InOdd s v))

namespace Flow

theorem focusedAt_spec {og : OpenGraph} {c : Finset ℕ} {v : ℕ} {l : Label} (hl : og.HasLabel v l) :
    ∃ b, focusedAt og c (og.oddSet c) v = .ok b ∧ (b = true ↔ FocusTest og c v l) := by
  obtain ⟨m, h1, rfl⟩ := hl
  have hlab : og.label v = .ok m.toPlaneOrAxis := by unfold OpenGraph.label; rw [h1]
  unfold FocusTest
  rw [← OpenGraph.mem_oddSet]
  generalize m.toPlaneOrAxis = l at hlab
  unfold focusedAt
  simp only [hlab, bind, Except.bind, pure, Except.pure, Finset.mem_symmDiff]
  by_cases a : v ∈ c <;> by_cases b : v ∈ og.oddSet c <;> rcases l with p | p <;> cases p <;> simp [a, b]

theorem focusedNodes_spec {og : OpenGraph} {c : Finset ℕ} (L : List ℕ) (hL : ∀ v ∈ L, ∃ l, og.HasLabel v l) :
    ∃ b, focusedNodes og c (og.oddSet c) L = .ok b ∧ (b = true ↔ ∀ v ∈ L, ∀ l, og.HasLabel v l → FocusTest og c v l) := by
  induction L with
  | nil => exact ⟨true, rfl, by simp⟩
  | cons a L ih =>
    obtain ⟨l, hl⟩ := hL a (by simp)
    obtain ⟨b, h1, h2⟩ := focusedAt_spec (c := c) hl
    obtain ⟨b', h3, h4⟩ := ih fun v hv => hL v (by simp [hv])
    have huniq : ∀ l', og.HasLabel a l' → l' = l := by
      rintro l' ⟨m', e1, rfl⟩
      obtain ⟨m, e2, rfl⟩ := hl
      rw [e1] at e2
      rw [Option.some.inj e2]
    simp only [focusedNodes, h1, bind, Except.bind, pure, Except.pure]
    cases b with
    | false =>
      refine ⟨false, rfl, ?_⟩
      simp only [Bool.false_eq_true, false_iff] at h2 ⊢
      exact fun h => h2 (h a (by simp) l hl)
    | true =>
      refine ⟨b', h3, h4.trans ?_⟩
      simp only [List.mem_cons, forall_eq_or_imp]
      exact ⟨fun h => ⟨fun l' hl' => by rw [huniq l' hl']; exact h2.1 rfl, h⟩, fun h => h.2⟩

theorem focusedLoop_spec {og : OpenGraph} (hv : og.Valid) {ord : SetOrd} (ho : ord.Valid) (L : PyDict ℕ (Finset ℕ)) (hL : ∀ e ∈ L, e.2 ⊆ og.nodes) :
    ∃ b, focusedLoop og ord L = .ok b ∧ (b = true ↔ ∀ e ∈ L, ∀ v l, v ≠ e.1 → og.HasLabel v l → FocusTest og e.2 v l) := by
  induction L with
  | nil => exact ⟨true, rfl, by simp⟩
  | cons e L ih =>
    obtain ⟨u, c⟩ := e
    obtain ⟨b', h3, h4⟩ := ih fun v hv => hL v (by simp [hv])
    have hc : c ⊆ og.nodes := hL (u, c) (by simp)
    have hlab : ∀ v, v ∈ og.measurements.keys ↔ ∃ l, og.HasLabel v l := by
      intro v
      rw [← PyDict.get?_isSome_iff, Option.isSome_iff_exists]
      exact ⟨fun ⟨m, hm⟩ => ⟨_, m, hm, rfl⟩, fun ⟨l, m, hm, _⟩ => ⟨m, hm⟩⟩
    have hmem : ∀ v, v ∈ ord 20 u (og.measurements.keys.toFinset \ {u}) ↔ (∃ l, og.HasLabel v l) ∧ v ≠ u := by
      intro v
      rw [(ho _ _ _).2]
      simp [hlab]
    obtain ⟨b, h1, h2⟩ := focusedNodes_spec (og := og) (c := c) (ord 20 u (og.measurements.keys.toFinset \ {u})) fun v hv => ((hmem v).1 hv).1
    simp only [focusedLoop, og.oddNeighbors_eq hc, h1, bind, Except.bind, pure, Except.pure]
    have h2' : b = true ↔ ∀ v l, v ≠ u → og.HasLabel v l → FocusTest og c v l := by
      rw [h2]
      exact ⟨fun h v l hne hl => h v ((hmem v).2 ⟨⟨l, hl⟩, hne⟩) l hl, fun h v hm l hl => h v l ((hmem v).1 hm).2 hl⟩
    cases b with
    | false =>
      refine ⟨false, rfl, ?_⟩
      simp only [Bool.false_eq_true, false_iff] at h2' ⊢
      exact fun h => h2' (h (u, c) (by simp))
    | true =>
      refine ⟨b', h3, h4.trans ?_⟩
      simp only [List.mem_cons, forall_eq_or_imp]
      exact ⟨fun h => ⟨h2'.1 rfl, h⟩, fun h => h.2⟩

/-- `is_focused` tests that the flow is focused. -/
theorem isFocused_spec {f : Flow} (hv : f.og.Valid) (hk : f.corr.keys.Nodup) (hc : ∀ u s, f.corr.get? u = some s → s ⊆ f.og.nodes) {ord : SetOrd} (ho : ord.Valid) :
    ∃ b, f.isFocused ord = .ok b ∧ (b = true ↔ f.Focused) := by
  have hm : ∀ e, e ∈ f.corr ↔ f.corr.get? e.1 = some e.2 := fun e => ⟨PyDict.get?_of_mem hk, PyDict.mem_of_get?⟩
  obtain ⟨b, h1, h2⟩ := focusedLoop_spec hv ho f.corr fun e he => hc _ _ ((hm e).1 he)
  refine ⟨b, h1, h2.trans ?_⟩
  exact ⟨fun h u s hs v l hne hl => h (u, s) ((hm _).2 hs) v l hne hl, fun h e he v l hne hl => h e.1 e.2 ((hm e).1 he) v l hne hl⟩

end Flow
namespace Extract

theorem dictOf_spec {α : Type} {g : ℕ → Except PyErr α} {P : ℕ → α → Prop} (L : List ℕ) (h : ∀ u ∈ L, ∃ x, g u = .ok x ∧ P u x) :
    ∃ D, dictOf g L = .ok D ∧ D.keys = L ∧ ∀ u ∈ L, ∃ x, D.get? u = some x ∧ P u x := by
  induction L with
  | nil => exact ⟨[], rfl, rfl, by simp⟩
  | cons a L ih =>
    obtain ⟨x, h1, h2⟩ := h a (by simp)
    obtain ⟨D, h3, h4, h5⟩ := ih fun u hu => h u (by simp [hu])
    refine ⟨(a, x) :: D, by simp only [dictOf, h1, h3, bind, Except.bind, pure, Except.pure], by simpa [PyDict.keys] using h4, ?_⟩
    intro u hu
    rw [PyDict.get?_cons]
    by_cases e : a = u
    · subst e; simp [h2]
    · rw [if_neg e]
      exact h5 u ((List.mem_cons.1 hu).resolve_left (Ne.symm e))

theorem listOf_spec {α β : Type} {g : α → Except PyErr β} {P : ℕ → α → β → Prop} (L : List α) (h : ∀ k a, L[k]? = some a → ∃ x, g a = .ok x ∧ P k a x) :
    ∃ R, listOf g L = .ok R ∧ R.length = L.length ∧ ∀ k x, R[k]? = some x → ∃ a, L[k]? = some a ∧ P k a x := by
  induction L generalizing P with
  | nil => exact ⟨[], rfl, rfl, by simp⟩
  | cons a L ih =>
    obtain ⟨x, h1, h2⟩ := h 0 a rfl
    obtain ⟨R, h3, h4, h5⟩ := ih (P := fun k => P (k + 1)) fun k a ha => h (k + 1) a (by simpa using ha)
    refine ⟨x :: R, by simp only [listOf, h1, h3, bind, Except.bind, pure, Except.pure], by simp [h4], ?_⟩
    intro k y hk
    cases k with
    | zero =>
      obtain rfl : x = y := by simpa using hk
      exact ⟨a, rfl, h2⟩
    | succ k => simpa using h5 k y (by simpa using hk)

/-- The `k`-th input has a Pauli measurement with a negative sign. -/
def negIn (og : OpenGraph) (k : ℕ) : Bool := (og.inputs[k]?).elim false (isMinus og)

section

variable {f : Flow} (hf : IsPauliFlow f) (hfoc : f.Focused) (hk : f.corr.keys.Nodup) (hv : f.og.Valid) (hloop : ∀ v, (v, v) ∉ f.og.edges)
  {ord : SetOrd} (ho : ord.Valid)
include hf hfoc hk hv hloop ho

theorem pauliStrings_spec : ∃ D, pauliStrings f ord = .ok D ∧ D.keys = f.corr.keys ∧ ∀ u ∈ f.corr.keys, ∃ p, D.get? u = some p ∧
    ∃ S m, f.corr.get? u = some S ∧ f.og.measurements.get? u = some m ∧ PsSpec f.og S m.toPlaneOrAxis p := by
  obtain ⟨b, h1, h2⟩ := f.isFocused_spec hv hk (fun u s hs => sub_nodes hf.toFlowBase hs) ho
  have h2 := h2.2 hfoc
  subst h2
  have h3 : ∀ u ∈ f.corr.keys, ∃ p, extractionPs f ord u = .ok p ∧
      ∃ S m, f.corr.get? u = some S ∧ f.og.measurements.get? u = some m ∧ PsSpec f.og S m.toPlaneOrAxis p := by
    intro u hu
    obtain ⟨S, hS⟩ := Option.isSome_iff_exists.1 ((PyDict.get?_isSome_iff _ _).2 hu)
    obtain ⟨hn, hno⟩ := (hf.domain u).1 ⟨S, hS⟩
    obtain ⟨m, hm⟩ := exists_meas hv hn hno
    obtain ⟨p, e1, e2, e3, e4, e5⟩ := extractionPs_spec hv (fun e he hh => hloop e.1 (by rw [show (e.1, e.1) = e from Prod.ext rfl hh]; exact he)) ho hS
      (sub_nodes hf.toFlowBase hS) (lb := m.toPlaneOrAxis) ⟨m, hm, rfl⟩
    exact ⟨p, e1, S, m, hS, hm, e2, e3, e4, e5⟩
  obtain ⟨D, h4, h5, h6⟩ := dictOf_spec f.corr.keys h3
  refine ⟨D, ?_, h5, h6⟩
  simp only [pauliStrings, h1, bind, Except.bind, if_true, h4]

theorem dagOf_spec : ∃ D, dagOf f ord = .ok ⟨D, f.layers, f.og.outputs⟩ ∧ D.keys = f.corr.keys ∧ ∀ u ∈ f.corr.keys, ∃ e, D.get? u = some e ∧
    ∃ S m, f.corr.get? u = some S ∧ f.og.measurements.get? u = some m ∧ PsSpec f.og S m.toPlaneOrAxis e.ps ∧
      e.angle = match m with | .bloch m => m.angle / 2 | .pauli _ => 0 := by
  obtain ⟨D, h1, h2, h3⟩ := pauliStrings_spec hf hfoc hk hv hloop ho
  have h4 : ∀ u ∈ f.corr.keys, ∃ e, pexpOf f ord u = .ok e ∧
    ∃ S m, f.corr.get? u = some S ∧ f.og.measurements.get? u = some m ∧ PsSpec f.og S m.toPlaneOrAxis e.ps ∧
      e.angle = match m with | .bloch m => m.angle / 2 | .pauli _ => 0 := by
    intro u hu
    obtain ⟨p, e1, S, m, e2, e3, e4⟩ := h3 u hu
    rcases m with b | b
    · exact ⟨⟨b.angle / 2, p⟩, by simp only [pexpOf, h1, lookup, e1, e3, bind, Except.bind, pure, Except.pure], S, _, e2, e3, e4, rfl⟩
    · exact ⟨⟨0, p⟩, by simp only [pexpOf, h1, lookup, e1, e3, bind, Except.bind, pure, Except.pure], S, _, e2, e3, e4, rfl⟩
  obtain ⟨E, h5, h6, h7⟩ := dictOf_spec f.corr.keys h4
  exact ⟨E, by simp only [dagOf, h5, bind, Except.bind, pure, Except.pure], h6, h7⟩

theorem zMapOf_spec : ∃ zs, zMapOf f ord = .ok zs ∧ zs.length = f.og.inputs.length ∧
      ∀ k p, zs[k]? = some p → p.Valid ∧ p.dim = f.og.outputs.length ∧
        ∀ ψ, wMap f.og [] (op1 Ops.Z k ψ) = sgn (negIn f.og k) • p.op (wMap f.og [] ψ) := by
  obtain ⟨D, h1, h2, h3⟩ := pauliStrings_spec hf hfoc hk hv hloop ho
  obtain ⟨hm, hi, hon, hin, hout, -⟩ := f.og.postInit_ok hv.post
  have hkey : ∀ v, v ∈ f.og.measurements.keys ↔ v ∈ f.og.nodes ∧ v ∉ f.og.outputs := by
    intro v; simpa using Finset.ext_iff.1 hm v
  have hcell : ∀ k i, f.og.inputs[k]? = some i → ∃ p, (if i ∈ f.og.measurements.keys then do
      lookup (← pauliStrings f ord) i
    else do
      let q ← (NodeIndex.clear.extend f.og.outputs).index i
      return ⟨f.og.outputs.length, [(q, .Z)], .plus⟩ : Except PyErr PauliString) = .ok p ∧
      (p.Valid ∧ p.dim = f.og.outputs.length ∧ ∀ ψ, wMap f.og [] (op1 Ops.Z k ψ) = sgn (negIn f.og k) • p.op (wMap f.og [] ψ)) := by
    intro k i hki
    have hnk : negIn f.og k = isMinus f.og i := by unfold negIn; rw [hki]; rfl
    rw [hnk]
    have him := List.mem_of_getElem? hki
    have hinode : i ∈ f.og.nodes := hi (by simpa using him)
    by_cases hmeas : i ∈ f.og.measurements.keys
    · rw [if_pos hmeas]
      have hck : i ∈ f.corr.keys := by
        rw [← PyDict.get?_isSome_iff, Option.isSome_iff_exists]
        exact (hf.domain i).2 ((hkey i).1 hmeas)
      obtain ⟨p, e1, S, m, e2, e3, e4⟩ := h3 i hck
      refine ⟨p, by simp only [h1, lookup, e1, bind, Except.bind], e4.valid, e4.dim, ?_⟩
      rw [isMinus_eq e3]
      exact wMap_Z hf hfoc hv (fun e he hh => hloop e.1 (by rw [show (e.1, e.1) = e from Prod.ext rfl hh]; exact he)) e2 hki e3 e4
    · rw [if_neg hmeas]
      have hio : i ∈ f.og.outputs := by
        by_contra hno
        exact hmeas ((hkey i).2 ⟨hinode, hno⟩)
      have hinv : (NodeIndex.clear.extend f.og.outputs).Inv := NodeIndex.Inv.clear.extend (by simpa [NodeIndex.clear] using hout)
      have hidx := hinv.index_ok (n := i) (by simpa [NodeIndex.extend, NodeIndex.clear] using hio)
      have hlist : (NodeIndex.clear.extend f.og.outputs).list = f.og.outputs := by simp [NodeIndex.extend, NodeIndex.clear]
      rw [hlist] at hidx
      have hlt : f.og.outputs.idxOf i < f.og.outputs.length := List.idxOf_lt_length_iff.2 hio
      refine ⟨⟨f.og.outputs.length, [(f.og.outputs.idxOf i, .Z)], .plus⟩, by simp only [hidx, bind, Except.bind, pure, Except.pure], ⟨by simp [PyDict.keys], by simpa [PyDict.keys] using hlt⟩, rfl, fun ψ => ?_⟩
      rw [wMap_Z_out hv hki hio, isMinus_out hv hio, sgn_false, one_smul]
      unfold PauliString.op
      rw [← locOps_foldr]
      simp only [Sign.toComplex, Sign.toInt]
      generalize wMap f.og [] ψ = φ
      have : locOps (PauliString.mat ⟨f.og.outputs.length, [(f.og.outputs.idxOf i, .Z)], .plus⟩) (List.range f.og.outputs.length) φ =
          locOps (Function.update (fun _ => 1) (f.og.outputs.idxOf i) Ops.Z) (List.range f.og.outputs.length) φ := by
        apply locOps_congr
        intro n _
        unfold PauliString.mat
        by_cases h : n = f.og.outputs.idxOf i
        · subst h; simp [PyDict.get?, Ops.fromAxis]
        · rw [Function.update_of_ne h]; simp [PyDict.get?, Ne.symm h]
      rw [this]
      have h2 := op1_locOps (fun _ => 1) Ops.Z (List.nodup_range (n := f.og.outputs.length)) (List.mem_range.2 hlt) φ
      rw [locOps_one, mul_one] at h2
      rw [← h2]
      simp
  obtain ⟨R, h4, h5, h6⟩ := listOf_spec (P := fun k _ (p : PauliString) => p.Valid ∧ p.dim = f.og.outputs.length ∧ ∀ ψ, wMap f.og [] (op1 Ops.Z k ψ) = sgn (negIn f.og k) • p.op (wMap f.og [] ψ)) f.og.inputs hcell
  exact ⟨R, h4, h5, fun k p hkp => let ⟨_, _, h⟩ := h6 k p hkp; h⟩

end

end Extract
end Graphix
