import Verif.Props.OgComposeFlow

/-!
# Property C62: composition of open graphs (renaming, examples and counterexamples)
-/

namespace Graphix
namespace OpenGraph

theorem czList_ren (g : ℕ → ℕ) (es : List (ℕ × ℕ)) (ψ : QState) :
    czList (es.map fun e => (g e.1, g e.2)) (ren g ψ) = ren g (czList es ψ) := by
  unfold czList
  induction es generalizing ψ with
  | nil => rfl
  | cons e es ih => rw [List.map_cons, List.foldl_cons, List.foldl_cons, ← ih]; rfl

theorem locOps_ren {g : ℕ → ℕ} (hg : Function.Injective g) {F F' : ℕ → Mat2} {l : List ℕ} (h : ∀ n ∈ l, F (g n) = F' n) (ψ : QState) :
    locOps F (l.map g) (ren g ψ) = ren g (locOps F' l ψ) := by
  induction l with
  | nil => rfl
  | cons a l ih =>
    rw [List.map_cons]
    unfold locOps
    rw [ih fun n hn => h n (by simp [hn]), h a (by simp), op1_ren hg]

/-- **C62** (what the renaming of the nodes means for the map) renaming the nodes of an open graph renames the qubits of its map. -/
theorem C62_rename (b : OpenGraph) (hb : b.Valid) (g : ℕ → ℕ) (hg : Function.Injective g) (ψ : QState) :
    (b.rename g).linMap (ren g ψ) = ren g (b.linMap ψ) := by
  have hinj : ∀ v ∈ b.nodes, ∀ w ∈ b.nodes, g v = g w → v = w := fun v _ w _ h => hg h
  rw [linMap_locF (rename_valid hb hinj), linMap_locF hb]
  have hp : ((b.nodes.sort (· ≤ ·)).map g).Perm ((b.rename g).nodes.sort (· ≤ ·)) := by
    refine (List.perm_ext_iff_of_nodup ((Finset.sort_nodup _ _).map hg) (Finset.sort_nodup _ _)).2 fun x => ?_
    rw [List.mem_map, Finset.mem_sort]
    change _ ↔ x ∈ b.nodes.image g
    rw [Finset.mem_image]
    simp
  have hcard : ((b.rename g).nodes \ (b.rename g).inputs.toFinset).card = (b.nodes \ b.inputs.toFinset).card := by
    rw [← Finset.card_image_of_injective (b.nodes \ b.inputs.toFinset) hg]
    congr 1
    ext x
    change x ∈ b.nodes.image g \ (b.inputs.map g).toFinset ↔ _
    rw [Finset.image_sdiff _ _ hg]
    simp only [Finset.mem_sdiff, List.mem_toFinset, Finset.mem_image, List.mem_map]
  rw [hcard, ← locOps_perm _ hp ((Finset.sort_nodup _ _).map hg)]
  change _ • locOps _ _ (czList (b.edges.map fun e => (g e.1, g e.2)) (ren g ψ)) = _
  rw [czList_ren, locOps_ren hg (F' := b.locF) fun n hn => locF_rename hb hinj (by simpa using hn)]
  rfl

/-! ## Example -/

/-- A wire: node 0 is measured in the XY plane, node 1 is the output. -/
noncomputable def wireOg (α : ℝ) : OpenGraph := ⟨{0, 1}, [(0, 1)], [0], [1], [(0, .bloch ⟨α, .XY⟩)], []⟩

theorem wireOg_valid (α : ℝ) : (wireOg α).Valid := by
  refine ⟨postInit_intro (fun w => ?_) ?_ ?_ (by simp [wireOg]) (by simp [wireOg]) (by simp [wireOg, PyDict.keys]), ?_, ?_, ?_, ?_⟩
  · by_cases h : w = 0
    · subst h; simp [wireOg, PyDict.get?]
    · simp [wireOg, PyDict.get?, h, Ne.symm h]
  · simp [wireOg]
  · simp [wireOg]
  · simp [wireOg]
  · simp [wireOg]
  · simp [wireOg, PyDict.keys]
  · simp [wireOg, PyDict.keys]

/-- Two wires, one after the other. -/
theorem wire_compose (α β : ℝ) : (wireOg α).compose (wireOg β) [(0, 1)] =
    .ok (⟨{0, 1, 2}, [(0, 1), (1, 2)], [0], [2], [(0, .bloch ⟨α, .XY⟩), (1, .bloch ⟨β, .XY⟩)], []⟩, [(0, 1), (1, 2)]) := by
  with_unfolding_all rfl

example : ∃ og d, (wireOg (1 / 4)).compose (wireOg (1 / 8)) [(0, 1)] = .ok (og, d) ∧
    OpPhaseEq og.linMap (fun ψ => ((wireOg (1 / 8)).rename (· + 1)).linMap ((wireOg (1 / 4)).linMap ψ)) := by
  refine ⟨_, _, wire_compose _ _, C62_compose_map_partial _ _ (wireOg_valid _) (wireOg_valid _) [(0, 1)] (by simp [PyDict.keys])
    _ _ (wire_compose _ _) (· + 1) ?_ ?_ ?_ ?_⟩
  · simp [wireOg, PyDict.get?]
  · intro v hv; simp only [wireOg, Finset.mem_insert, Finset.mem_singleton, List.mem_cons, List.not_mem_nil, or_false] at *; omega
  · intro v w h
    unfold Adj at *
    simp only [wireOg, List.mem_cons, List.not_mem_nil, or_false, Prod.mk.injEq] at *
    omega
  · intro v w c _ h; simp [wireOg] at h

/-- A wire has a causal flow. -/
theorem wireOg_flow (α : ℝ) : HasCausalFlow (wireOg α) := by
  refine ⟨fun _ => 1, fun x y => x < y, fun _ => lt_irrefl _, fun _ _ _ => lt_trans, fun u hu huo => ?_⟩
  have h0 : u = 0 := by
    simp only [wireOg, Finset.mem_insert, Finset.mem_singleton, List.mem_cons, List.not_mem_nil, or_false] at hu huo
    omega
  subst h0
  refine ⟨by simp [wireOg], by simp [wireOg], by simp [wireOg, Adj], by simp, fun v hv hne => ?_⟩
  simp only [wireOg, Adj, List.mem_cons, List.not_mem_nil, or_false, Prod.mk.injEq] at hv
  omega

example : ∃ og d, (wireOg (1 / 4)).compose (wireOg (1 / 8)) [(0, 1)] = .ok (og, d) ∧ HasCausalFlow og := by
  refine ⟨_, _, wire_compose _ _, (C62_compose_flow _ _ (wireOg_valid _) (wireOg_valid _) [(0, 1)] (by simp [PyDict.keys])
    _ _ (wire_compose _ _) (· + 1) ?_ ?_ ?_).2.2 (wireOg_flow _) (wireOg_flow _)⟩
  · simp [wireOg, PyDict.get?]
  · intro v hv; simp only [wireOg, Finset.mem_insert, Finset.mem_singleton, List.mem_cons, List.not_mem_nil, or_false] at *; omega
  · intro v _; simp [wireOg]

/-! ## What `compose` gets wrong -/

/-- A controlled Z. -/
def czOg : OpenGraph := ⟨{0, 1}, [(0, 1)], [0, 1], [0, 1], [], []⟩

theorem czOg_valid : czOg.Valid := by
  refine ⟨by decide +kernel, by simp [czOg], by simp [czOg], by simp [czOg, PyDict.keys], by simp [czOg, PyDict.keys]⟩

theorem czOg_map (ψ : QState) : czOg.linMap ψ = cz 0 1 ψ := by
  rw [linMap_locF czOg_valid]
  have h1 : (czOg.nodes \ czOg.inputs.toFinset).card = 0 := by decide
  have h2 : czOg.locF = fun _ => 1 := by funext w; rfl
  rw [h1, h2, locOps_one, pow_zero, one_smul]
  rfl

/-- **C62** (negative) an edge that both open graphs have is kept once, although two controlled Zs cancel: composing a
controlled Z with a controlled Z gives a controlled Z, not the identity. -/
theorem C62_shared_edge : ∃ og d, czOg.compose czOg [(0, 0), (1, 1)] = .ok (og, d) ∧ Feeds czOg czOg id ∧
    (∀ v ∈ czOg.nodes, d.get? v = some (id v)) ∧ czOg.cliffords = [] ∧
    ¬ OpPhaseEq og.linMap (fun ψ => (czOg.rename id).linMap (czOg.linMap ψ)) := by
  have hc : czOg.compose czOg [(0, 0), (1, 1)] = .ok (czOg, [(0, 0), (1, 1)]) := by with_unfolding_all rfl
  refine ⟨czOg, _, hc, ?_, by simp [czOg, PyDict.get?], rfl, ?_⟩
  · intro v hv _
    simpa [czOg] using hv
  · have hr : czOg.rename id = czOg := by with_unfolding_all rfl
    rw [hr]
    rintro ⟨c, -, h⟩
    have h1 := h (fun _ => 1)
    dsimp only at h1
    rw [czOg_map, czOg_map] at h1
    have e0 := congrFun h1 (fun _ => false)
    have e1 := congrFun h1 (fun _ => true)
    simp only [cz, Pi.smul_apply, smul_eq_mul, Bool.and_self, Bool.and_true] at e0 e1
    norm_num at e0 e1
    rw [← e0] at e1
    norm_num at e1

/-- An X gate, given as the Clifford of an output. -/
def xOg : OpenGraph := ⟨{0}, [], [0], [0], [], [(0, .X)]⟩

theorem xOg_valid : xOg.Valid := by
  refine ⟨by decide +kernel, by simp [xOg], by simp [xOg], by simp [xOg, PyDict.keys], by simp [xOg, PyDict.keys]⟩

/-- **C62** (negative) the Clifford of an output node is applied after the edges of the second open graph: composing an X gate
with a controlled Z gives the controlled Z followed by X. -/
theorem C62_clifford_order : ∃ og d, xOg.compose czOg [(0, 0)] = .ok (og, d) ∧ Feeds xOg czOg id ∧
    (∀ v ∈ czOg.nodes, d.get? v = some (id v)) ∧ (∀ v w, czOg.Adj v w → ¬ xOg.Adj v w) ∧
    ¬ OpPhaseEq og.linMap (fun ψ => (czOg.rename id).linMap (xOg.linMap ψ)) := by
  have hc : xOg.compose czOg [(0, 0)] = .ok (⟨{0, 1}, [(0, 1)], [0, 1], [0, 1], [], [(0, .X)]⟩, [(0, 0), (1, 1)]) := by
    with_unfolding_all rfl
  refine ⟨_, _, hc, ?_, by simp [czOg, PyDict.get?], by simp [xOg, Adj], ?_⟩
  · intro v hv h
    have : v = 0 := by simpa [xOg] using h
    subst this
    simp [czOg, xOg]
  · have hr : czOg.rename id = czOg := by with_unfolding_all rfl
    rw [hr]
    rintro ⟨c, -, h⟩
    have h1 := h (fun _ => 1)
    have hog : (⟨{0, 1}, [(0, 1)], [0, 1], [0, 1], [], [(0, .X)]⟩ : OpenGraph).Valid := by
      refine ⟨by decide +kernel, by simp, by simp, by simp [PyDict.keys], by simp [PyDict.keys]⟩
    have hX : ∀ ψ, xOg.linMap ψ = op1 Ops.X 0 ψ := fun ψ => by
      rw [linMap_locF xOg_valid]
      have h1 : (xOg.nodes \ xOg.inputs.toFinset).card = 0 := by decide
      have h2 : xOg.nodes.sort (· ≤ ·) = [0] := by with_unfolding_all rfl
      have h3 : xOg.locF 0 = Clifford.X.matrix := rfl
      rw [h1, h2, pow_zero, one_smul]
      unfold locOps
      rw [h3, Clifford.matrix_X]
      rfl
    have hO : ∀ ψ, (⟨{0, 1}, [(0, 1)], [0, 1], [0, 1], [], [(0, .X)]⟩ : OpenGraph).linMap ψ = op1 Ops.X 0 (cz 0 1 ψ) := fun ψ => by
      rw [linMap_locF hog]
      have h1 : (({0, 1} : Finset ℕ) \ [0, 1].toFinset).card = 0 := by decide
      have h2 : (({0, 1} : Finset ℕ).sort (· ≤ ·)).Perm [0, 1] :=
        (List.perm_ext_iff_of_nodup (Finset.sort_nodup _ _) (by simp)).2 fun x => by simp
      have h3 : (⟨{0, 1}, [(0, 1)], [0, 1], [0, 1], [], [(0, .X)]⟩ : OpenGraph).locF 0 = Clifford.X.matrix := rfl
      have h4 : (⟨{0, 1}, [(0, 1)], [0, 1], [0, 1], [], [(0, .X)]⟩ : OpenGraph).locF 1 = 1 := rfl
      rw [h1, locOps_perm _ h2 (Finset.sort_nodup _ _), pow_zero, one_smul]
      unfold locOps
      unfold locOps
      rw [h3, h4, Clifford.matrix_X, op1_one]
      rfl
    dsimp only at h1
    rw [hO, czOg_map, hX] at h1
    have e0 := congrFun h1 (fun _ => false)
    have e1 := congrFun h1 (fun n => decide (n = 1))
    simp [cz, op1, Ops.X, mat2, Function.update] at e0 e1
    rw [← e0] at e1
    norm_num at e1

end OpenGraph
end Graphix
