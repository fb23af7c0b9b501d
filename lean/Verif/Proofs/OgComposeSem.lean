import Verif.Props.OgCompose
import Verif.Proofs.Determinism
import Verif.Proofs.Pauli

/-! Semantics of composed open graphs. -/

namespace Graphix

/-- The open graph with its nodes renamed by `f`. -/
def OpenGraph.rename (f : ℕ → ℕ) (og : OpenGraph) : OpenGraph :=
  ⟨og.nodes.image f, og.edges.map fun e => (f e.1, f e.2), og.inputs.map f, og.outputs.map f,
    og.measurements.map fun kv => (f kv.1, kv.2), og.cliffords.map fun kv => (f kv.1, kv.2)⟩

namespace OpenGraph

/-- What is applied to a node, after the preparations and the entanglement. -/
noncomputable def locF (og : OpenGraph) (w : ℕ) : Mat2 :=
  match og.measurements.get? w with
  | some m => bra (measVec m false)
  | none => match og.cliffords.get? w with
    | some c => c.matrix
    | none => 1

theorem accum_cliff_get? {r : ℕ → Bool} {cs : PyDict ℕ Clifford} (hcs : cs.keys.Nodup) (w : ℕ) :
    accum r (cs.map fun kv => Command.C kv.1 kv.2) w 1 = match cs.get? w with
      | some c => c.matrix
      | none => 1 := by
  induction cs with
  | nil => rfl
  | cons kv cs ih =>
    obtain ⟨k, c⟩ := kv
    have hl' := List.nodup_cons.1 (show (k :: PyDict.keys cs).Nodup from hcs)
    rw [List.map_cons, accum_cons (n := k) (U := c.matrix) rfl, PyDict.get?_cons]
    by_cases h : k = w
    · subst h
      rw [if_pos rfl, if_pos rfl, accum_cliff_ne (w := k), Matrix.mul_one]
      rintro kv hkv rfl
      exact hl'.1 (List.mem_map_of_mem hkv)
    · rw [if_neg h, if_neg h, ih hl'.2]

/-- The map of the open graph: preparation (a factor), entanglement, and an operator on each node. -/
theorem linMap_locF {og : OpenGraph} (hv : og.Valid) (ψ : QState) :
    og.linMap ψ = (PlanarState.plus.vec false) ^ (og.nodes \ og.inputs.toFinset).card •
      locOps og.locF (og.nodes.sort (· ≤ ·)) (czList og.edges ψ) := by
  have hp := prepList_apply ((og.nodes \ og.inputs.toFinset).sort (· ≤ ·))
  rw [linMap_eq hv (order := (og.nodes \ og.outputs.toFinset).sort (· ≤ ·)) (ns := (og.nodes \ og.inputs.toFinset).sort (· ≤ ·))
    (by simp) (Finset.sort_nodup _ _) (by simp)]
  have e : ∀ ψ, czList og.edges (prepList ((og.nodes \ og.inputs.toFinset).sort (· ≤ ·)) ψ) =
      (PlanarState.plus.vec false) ^ (og.nodes \ og.inputs.toFinset).card • czList og.edges ψ := by
    intro ψ
    funext b
    rw [Pi.smul_apply, czList_apply, czList_apply, hp, Finset.length_sort, smul_eq_mul]
    ring
  rw [e, locOps_homog]
  congr 1
  apply locOps_congr
  intro w hw
  have hwn : w ∈ og.nodes := by simpa using hw
  unfold locF
  by_cases hwo : w ∈ og.outputs
  · rw [if_neg (by simp [hwo]), accum_cliff_get? hv.clif_keys]
    have : og.measurements.get? w = none := by
      by_contra hne
      exact ((hv.measured w).1 (by rwa [Option.isSome_iff_ne_none])).2 hwo
    rw [this]
  · rw [if_pos (by simp [hwo, hwn])]
    obtain ⟨m, hm⟩ := Option.isSome_iff_exists.1 ((hv.measured w).2 ⟨hwn, hwo⟩)
    unfold measOf
    rw [hm]; rfl

theorem locF_notMem {og : OpenGraph} (hv : og.Valid) {w : ℕ} (hw : w ∉ og.nodes) : og.locF w = 1 := by
  unfold locF
  have h1 : og.measurements.get? w = none := by
    by_contra hne
    exact hw ((hv.measured w).1 (by rwa [Option.isSome_iff_ne_none])).1
  have h2 : og.cliffords.get? w = none := by
    by_contra hne
    obtain ⟨c, hc⟩ := Option.ne_none_iff_exists'.1 hne
    exact hw (hv.output_mem (hv.clifford_mem hc))
  rw [h1, h2]

end OpenGraph

/-- Operators equal to 1 can be added. -/
theorem locOps_extend {F : ℕ → Mat2} {s t : Finset ℕ} (h : s ⊆ t) (h1 : ∀ w ∈ t, w ∉ s → F w = 1) (ψ : QState) :
    locOps F (s.sort (· ≤ ·)) ψ = locOps F (t.sort (· ≤ ·)) ψ := by
  have happ : ∀ (l l' : List ℕ) ψ, locOps F (l ++ l') ψ = locOps F l (locOps F l' ψ) := by
    intro l l' ψ
    induction l with
    | nil => rfl
    | cons a l ih => rw [List.cons_append]; unfold locOps; rw [ih]
  have hp : ((t \ s).sort (· ≤ ·) ++ s.sort (· ≤ ·)).Perm (t.sort (· ≤ ·)) := by
    refine (List.perm_ext_iff_of_nodup ?_ (Finset.sort_nodup _ _)).2 ?_
    · refine nodup_of_lists (Finset.sort_nodup _ _) (Finset.sort_nodup _ _) fun x hx hx' => ?_
      simp only [Finset.mem_sort, Finset.mem_sdiff] at hx hx'
      exact hx.2 hx'
    · intro x
      simp only [List.mem_append, Finset.mem_sort, Finset.mem_sdiff]
      constructor
      · rintro (h' | h')
        · exact h'.1
        · exact h h'
      · intro h'
        by_cases hx : x ∈ s
        · exact Or.inr hx
        · exact Or.inl ⟨h', hx⟩
  have hnd : ((t \ s).sort (· ≤ ·) ++ s.sort (· ≤ ·)).Nodup := hp.nodup_iff.2 (Finset.sort_nodup _ _)
  rw [← locOps_perm F hp hnd, happ, locOps_congr (G := fun _ => 1) (l := (t \ s).sort (· ≤ ·)) (fun n hn => by
    simp only [Finset.mem_sort, Finset.mem_sdiff] at hn
    exact h1 n hn.1 hn.2), locOps_one]

/-- The matrix is diagonal. -/
def Diag (U : Mat2) : Prop := U false true = 0 ∧ U true false = 0

theorem op1_diagonal {U : Mat2} (h : Diag U) (n : ℕ) (ψ : QState) (b : Basis) : op1 U n ψ b = U (b n) (b n) * ψ b := by
  have e : ∀ x, b n = x → Function.update b n x = b := fun x hx => by rw [← hx, Function.update_eq_self]
  unfold op1
  cases hb : b n
  · simp [h.1, e _ hb]
  · simp [h.2, e _ hb]

theorem op1_cz_diag {U : Mat2} {n u v : ℕ} (h : n = u ∨ n = v → Diag U) (ψ : QState) :
    op1 U n (cz u v ψ) = cz u v (op1 U n ψ) := by
  by_cases hn : n = u ∨ n = v
  · funext b
    rw [op1_diagonal (h hn)]
    unfold cz
    rw [op1_diagonal (h hn)]
    ring
  · push Not at hn
    funext b
    unfold op1 cz
    simp only [Function.update_of_ne (Ne.symm hn.1), Function.update_of_ne (Ne.symm hn.2)]
    ring

theorem locOps_czList_diag {F : ℕ → Mat2} (l : List ℕ) {es : List (ℕ × ℕ)} (h : ∀ e ∈ es, Diag (F e.1) ∧ Diag (F e.2)) (ψ : QState) :
    locOps F l (czList es ψ) = czList es (locOps F l ψ) := by
  have h1 : ∀ (u v : ℕ), Diag (F u) → Diag (F v) → ∀ ψ, locOps F l (cz u v ψ) = cz u v (locOps F l ψ) := by
    intro u v hu hv ψ
    induction l with
    | nil => rfl
    | cons a l ih =>
      unfold locOps
      rw [ih, op1_cz_diag]
      rintro (rfl | rfl)
      · exact hu
      · exact hv
  unfold czList
  induction es generalizing ψ with
  | nil => rfl
  | cons e es ih =>
    rw [List.foldl_cons, List.foldl_cons, ih fun e he => h e (by simp [he]), h1 _ _ (h e (by simp)).1 (h e (by simp)).2]

namespace OpenGraph

section
variable {f : ℕ → ℕ} {b : OpenGraph}

theorem rename_meas (hb : b.Valid) (hinj : ∀ v ∈ b.nodes, ∀ w ∈ b.nodes, f v = f w → v = w) :
    (∀ v ∈ b.nodes, (b.rename f).measurements.get? (f v) = b.measurements.get? v) ∧
    ∀ w, (∀ v ∈ b.nodes, f v ≠ w) → (b.rename f).measurements.get? w = none := by
  have hS : ∀ v ∈ b.measurements.keys, v ∈ b.nodes := fun v hv => ((hb.measured v).1 ((PyDict.get?_isSome_iff _ _).2 hv)).1
  obtain ⟨h1, h2⟩ := get?_rename (f := f) b.measurements hS hinj
  exact ⟨h1, fun w hw => h2 w fun v hv => hw v (hS v hv)⟩

theorem rename_cliff (hb : b.Valid) (hinj : ∀ v ∈ b.nodes, ∀ w ∈ b.nodes, f v = f w → v = w) :
    (∀ v ∈ b.nodes, (b.rename f).cliffords.get? (f v) = b.cliffords.get? v) ∧
    ∀ w, (∀ v ∈ b.nodes, f v ≠ w) → (b.rename f).cliffords.get? w = none := by
  have hS : ∀ v ∈ b.cliffords.keys, v ∈ b.nodes := fun v hv => by
    obtain ⟨c, hc⟩ := Option.isSome_iff_exists.1 ((PyDict.get?_isSome_iff _ _).2 hv)
    exact hb.output_mem (hb.clifford_mem hc)
  obtain ⟨h1, h2⟩ := get?_rename (f := f) b.cliffords hS hinj
  exact ⟨h1, fun w hw => h2 w fun v hv => hw v (hS v hv)⟩

theorem mem_map_inj (hinj : ∀ v ∈ b.nodes, ∀ w ∈ b.nodes, f v = f w → v = w) {l : List ℕ} (hl : ∀ v ∈ l, v ∈ b.nodes)
    {v : ℕ} (hv : v ∈ b.nodes) : f v ∈ l.map f ↔ v ∈ l := by
  constructor
  · intro h
    obtain ⟨v', hv', e⟩ := List.mem_map.1 h
    exact hinj v' (hl v' hv') v hv e ▸ hv'
  · exact fun h => List.mem_map_of_mem h

theorem rename_valid (hb : b.Valid) (hinj : ∀ v ∈ b.nodes, ∀ w ∈ b.nodes, f v = f w → v = w) : (b.rename f).Valid := by
  obtain ⟨-, -, -, bni, bno, -⟩ := OpenGraph.postInit_ok hb.post
  have hk : ∀ {β : Type} (l : PyDict ℕ β), PyDict.keys (l.map fun kv => (f kv.1, kv.2)) = l.keys.map f := fun l => by
    unfold PyDict.keys; rw [List.map_map, List.map_map]; rfl
  have hm := rename_meas hb hinj
  have hc := rename_cliff hb hinj
  have hmem : ∀ w, w ∈ (b.rename f).nodes ↔ ∃ v ∈ b.nodes, f v = w := fun w => Finset.mem_image
  have hnd : ∀ l : List ℕ, l.Nodup → (∀ v ∈ l, v ∈ b.nodes) → (l.map f).Nodup := fun l hl hlb =>
    List.Nodup.map_on (fun x hx y hy h => hinj x (hlb x hx) y (hlb y hy) h) hl
  refine ⟨postInit_intro (fun w => ?_) (fun w hw => ?_) (fun w hw => ?_) ?_ ?_ (fun w hw => ?_), ?_, ?_, ?_, ?_⟩
  · rw [hmem]
    by_cases h : ∃ v ∈ b.nodes, f v = w
    · obtain ⟨v, hv, rfl⟩ := h
      rw [hm.1 v hv, hb.measured]
      have := mem_map_inj hinj (fun v hv => hb.output_mem hv) hv
      exact ⟨fun h => ⟨⟨v, hv, rfl⟩, fun ho => h.2 (this.1 ho)⟩, fun h => ⟨hv, fun ho => h.2 (this.2 ho)⟩⟩
    · have h' := h
      push Not at h'
      rw [hm.2 w h']
      simp only [h, false_and]
      simp
  · obtain ⟨v, hv, e⟩ := List.mem_map.1 (show w ∈ b.inputs.map f from hw)
    exact (hmem w).2 ⟨v, hb.input_mem hv, e⟩
  · obtain ⟨v, hv, e⟩ := List.mem_map.1 (show w ∈ b.outputs.map f from hw)
    exact (hmem w).2 ⟨v, hb.output_mem hv, e⟩
  · exact hnd _ bni fun v hv => hb.input_mem hv
  · exact hnd _ bno fun v hv => hb.output_mem hv
  · have hw' : w ∈ b.cliffords.keys.map f := by rw [← hk]; exact hw
    obtain ⟨v, hv, e⟩ := List.mem_map.1 hw'
    obtain ⟨c, hc'⟩ := Option.isSome_iff_exists.1 ((PyDict.get?_isSome_iff _ _).2 hv)
    exact List.mem_map.2 ⟨v, hb.clifford_mem hc', e⟩
  · intro x y h
    obtain ⟨e, he, h'⟩ := List.mem_map.1 (show (x, y) ∈ b.edges.map _ from h)
    cases h'
    exact ⟨(hmem _).2 ⟨_, (hb.edge_mem _ _ he).1, rfl⟩, (hmem _).2 ⟨_, (hb.edge_mem _ _ he).2, rfl⟩⟩
  · refine List.pairwise_map.2 (List.Pairwise.imp_of_mem ?_ hb.edge_once)
    rintro ⟨x1, x2⟩ ⟨y1, y2⟩ hx hy ⟨h1, h2⟩
    have hx' := hb.edge_mem _ _ hx
    have hy' := hb.edge_mem _ _ hy
    constructor
    · intro e
      simp only [Prod.mk.injEq] at e
      exact h1 (by rw [hinj _ hx'.1 _ hy'.1 e.1, hinj _ hx'.2 _ hy'.2 e.2])
    · intro e
      simp only [Prod.mk.injEq] at e
      exact h2 (by rw [hinj _ hx'.1 _ hy'.2 e.1, hinj _ hx'.2 _ hy'.1 e.2])
  · change (PyDict.keys (b.measurements.map fun kv => (f kv.1, kv.2))).Nodup
    rw [hk]
    exact hnd _ hb.meas_keys fun v hv => ((hb.measured v).1 ((PyDict.get?_isSome_iff _ _).2 hv)).1
  · change (PyDict.keys (b.cliffords.map fun kv => (f kv.1, kv.2))).Nodup
    rw [hk]
    refine hnd _ hb.clif_keys fun v hv => ?_
    obtain ⟨c, hc⟩ := Option.isSome_iff_exists.1 ((PyDict.get?_isSome_iff _ _).2 hv)
    exact hb.output_mem (hb.clifford_mem hc)

theorem locF_rename (hb : b.Valid) (hinj : ∀ v ∈ b.nodes, ∀ w ∈ b.nodes, f v = f w → v = w) {v : ℕ} (hv : v ∈ b.nodes) :
    (b.rename f).locF (f v) = b.locF v := by
  unfold locF
  rw [(rename_meas hb hinj).1 v hv, (rename_cliff hb hinj).1 v hv]

end
end OpenGraph
end Graphix
