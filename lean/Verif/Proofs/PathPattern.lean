import Verif.Model.ToPattern
import Verif.Props.ToPattern
import Verif.Props.Swaps
import Verif.Proofs.Reindex

/-!
# The path that stands for a Clifford gate
-/

namespace Graphix

open Function

/-- The gate that a step of the path applies: `H` after the phase of the measured vector. -/
noncomputable def stepMat (m : Axis × Sign) : Mat2 := fun b a =>
  (if a && b then -1 else 1) * star (measVec (.pauli ⟨m.1, m.2⟩) false a)

/-- The gate of the path. -/
noncomputable def pathMat (ms : List (Axis × Sign)) : Mat2 := ms.foldl (fun A m => stepMat m * A) 1

/-- The Clifford gate of a step. -/
def stepClifford : Axis × Sign → Clifford
  | (.X, .plus) => Clifford.H
  | (.X, .minus) => Clifford.H.mul Clifford.Z
  | (.Y, .plus) => Clifford.H.mul Clifford.SDG
  | (.Y, .minus) => Clifford.H.mul Clifford.S
  | (.Z, _) => Clifford.I

theorem exp_pi : Complex.exp (Complex.I * (Real.pi : ℂ)) = -1 := by rw [mul_comm, Complex.exp_pi_mul_I]

theorem exp_half_pi : Complex.exp (Complex.I * (0.5 * (Real.pi : ℂ))) = Complex.I := by
  rw [show Complex.I * (0.5 * (Real.pi : ℂ)) = (Real.pi : ℂ) / 2 * Complex.I by ring, Complex.exp_pi_div_two_mul_I]

theorem exp_three_half_pi : Complex.exp (Complex.I * (1.5 * (Real.pi : ℂ))) = -Complex.I := by
  rw [show Complex.I * (1.5 * (Real.pi : ℂ)) = (Real.pi : ℂ) / 2 * Complex.I + (Real.pi : ℂ) * Complex.I by ring, Complex.exp_add,
    Complex.exp_pi_mul_I, Complex.exp_pi_div_two_mul_I]
  ring

theorem stepMat_clifford (m : Axis × Sign) (h : m.1 ≠ .Z) : MatPhaseEq (stepMat m) (stepClifford m).matrix := by
  obtain ⟨a, s⟩ := m
  have key : ∀ g : Clifford, ∀ G : Mat2, g.matrix = G → MatPhaseEq (Ops.H * G) (Clifford.H.mul g).matrix := by
    rintro g G rfl
    rw [← Clifford.matrix_H]; exact Clifford.mul_matrix _ _
  cases a with
  | X =>
    cases s with
    | plus =>
      refine ⟨1, by simp, ?_⟩
      rw [show stepClifford (.X, .plus) = Clifford.H from rfl, Clifford.matrix_H, one_smul]
      apply mat2_ext <;> simp [stepMat, measVec, Measurement.toBloch, PauliMeasurement.toBloch, planarState, Ops.H]
    | minus =>
      refine MatPhaseEq.trans (MatPhaseEq.of_eq ?_) (key _ _ Clifford.matrix_Z)
      apply mat2_ext <;> simp [stepMat, measVec, Measurement.toBloch, PauliMeasurement.toBloch, planarState, Ops.H, Ops.Z, mul2_apply, exp_pi, exp_half_pi, exp_three_half_pi] <;> ring
  | Y =>
    cases s with
    | plus =>
      refine MatPhaseEq.trans (MatPhaseEq.of_eq ?_) (key _ _ Clifford.matrix_SDG)
      apply mat2_ext <;> simp [stepMat, measVec, Measurement.toBloch, PauliMeasurement.toBloch, planarState, Ops.H, Ops.SDG, mul2_apply, exp_pi, exp_half_pi, exp_three_half_pi] <;> ring
    | minus =>
      refine MatPhaseEq.trans (MatPhaseEq.of_eq ?_) (key _ _ Clifford.matrix_S)
      apply mat2_ext <;> simp [stepMat, measVec, Measurement.toBloch, PauliMeasurement.toBloch, planarState, Ops.H, Ops.S, mul2_apply, exp_pi, exp_half_pi, exp_three_half_pi] <;> ring
  | Z => exact absurd rfl h

theorem decomposition_check : ∀ c : Fin 24, (lookup cliffordPauliDecomposition (Clifford.ofFin c) []).length ≤ 3 ∧
    (∀ m ∈ lookup cliffordPauliDecomposition (Clifford.ofFin c) [], m.1 ≠ .Z) ∧
    (lookup cliffordPauliDecomposition (Clifford.ofFin c) []).foldl (fun A m => (stepClifford m).mul A) Clifford.I = Clifford.ofFin c ∧
    (lookup cliffordPauliDecomposition (Clifford.ofFin c) [] = [] → c = 0) := by
  decide

theorem pathMat_fold (ms : List (Axis × Sign)) (h : ∀ m ∈ ms, m.1 ≠ .Z) (A : Mat2) (g : Clifford) (hA : MatPhaseEq A g.matrix) :
    MatPhaseEq (ms.foldl (fun A m => stepMat m * A) A) (ms.foldl (fun A m => (stepClifford m).mul A) g).matrix := by
  induction ms generalizing A g with
  | nil => exact hA
  | cons m ms ih =>
    exact ih (fun m hm => h m (by simp [hm])) _ _
      (((stepMat_clifford m (h m (by simp))).mul hA).trans (Clifford.mul_matrix _ _))

/-- The path of a Clifford gate applies the gate. -/
theorem pathMat_clifford (c : Clifford) : MatPhaseEq (pathMat (lookup cliffordPauliDecomposition c [])) c.matrix := by
  obtain ⟨-, h1, h2, -⟩ := decomposition_check c
  have := pathMat_fold (lookup cliffordPauliDecomposition c []) h1 1 Clifford.I (by
    rw [Clifford.matrix_I]; exact MatPhaseEq.refl _)
  rw [show List.foldl (fun A m => (stepClifford m).mul A) Clifford.I (lookup cliffordPauliDecomposition c []) = c from h2] at this
  exact this

/-! ### The path as an open graph -/

theorem path_get? (ms : List (Axis × Sign)) (k i : ℕ) :
    PyDict.get? ((ms.zipIdx k).map fun mi => (mi.2, Measurement.pauli ⟨mi.1.1, mi.1.2⟩)) i =
      if k ≤ i then (ms[i - k]?).map fun m => Measurement.pauli ⟨m.1, m.2⟩ else none := by
  induction ms generalizing k with
  | nil => simp [PyDict.get?]
  | cons m ms ih =>
    rw [List.zipIdx_cons, List.map_cons, PyDict.get?_cons, ih]
    by_cases h : k = i
    · subst h; simp
    · rw [if_neg (by simpa using h)]
      by_cases h1 : k ≤ i
      · have h2 : k + 1 ≤ i := by omega
        rw [if_pos h1, if_pos h2, show i - k = (i - (k + 1)) + 1 by omega, List.getElem?_cons_succ]
      · rw [if_neg h1, if_neg (by omega)]

theorem path_keys (ms : List (Axis × Sign)) : (pathOpenGraph ms).measurements.keys = List.range ms.length := by
  unfold pathOpenGraph PyDict.keys
  simp only [List.map_map]
  rw [show (Prod.fst ∘ fun mi : (Axis × Sign) × ℕ => (mi.2, Measurement.pauli ⟨mi.1.1, mi.1.2⟩)) = Prod.snd from rfl,
    List.zipIdx_map_snd, List.range_eq_range']

theorem path_valid (ms : List (Axis × Sign)) : (pathOpenGraph ms).Valid := by
  constructor
  · have hk := path_keys ms
    unfold OpenGraph.postInit
    simp only [hk]
    simp only [pathOpenGraph, List.toFinset_range]
    have h1 : Finset.range ms.length ⊆ Finset.range (ms.length + 1) := Finset.range_mono (by omega)
    have h2 : [0].toFinset ⊆ Finset.range (ms.length + 1) := by simp
    have h3 : [ms.length].toFinset ⊆ Finset.range (ms.length + 1) := by simp
    have h4 : [ms.length].toFinset ∩ Finset.range ms.length = ∅ := by ext x; simp
    have h5 : Finset.range (ms.length + 1) \ [ms.length].toFinset = Finset.range ms.length := by ext x; simp; omega
    rw [List.toFinset_cons, List.toFinset_nil] at h5
    simp at h5
    simp [h1, h5, PyDict.keys]
  · intro u v h
    simp only [pathOpenGraph, List.mem_map, List.mem_range] at h
    obtain ⟨i, hi, h⟩ := h
    cases h
    simp only [pathOpenGraph, Finset.mem_range]; omega
  · simp only [pathOpenGraph, List.pairwise_map]
    refine List.Pairwise.imp ?_ List.pairwise_lt_range
    intro a b h
    simp only [ne_eq, Prod.mk.injEq, not_and]
    omega
  · rw [path_keys]; exact List.nodup_range
  · exact List.nodup_nil

theorem path_loop (ms : List (Axis × Sign)) (v : ℕ) : (v, v) ∉ (pathOpenGraph ms).edges := by
  simp only [pathOpenGraph, List.mem_map, List.mem_range, not_exists, not_and]
  intro i _ h
  cases h

theorem path_adj (ms : List (Axis × Sign)) (u v : ℕ) :
    (pathOpenGraph ms).Adj u v ↔ (v = u + 1 ∧ u < ms.length) ∨ (u = v + 1 ∧ v < ms.length) := by
  unfold OpenGraph.Adj pathOpenGraph
  simp only [List.mem_map, List.mem_range, Prod.mk.injEq]
  constructor
  · rintro (⟨i, hi, rfl, rfl⟩ | ⟨i, hi, rfl, rfl⟩)
    · exact Or.inl ⟨rfl, hi⟩
    · exact Or.inr ⟨rfl, hi⟩
  · rintro (⟨rfl, h⟩ | ⟨rfl, h⟩)
    · exact Or.inl ⟨_, h, rfl, rfl⟩
    · exact Or.inr ⟨_, h, rfl, rfl⟩

theorem path_label {ms : List (Axis × Sign)} (hz : ∀ m ∈ ms, m.1 ≠ .Z) {v : ℕ} {l : Label} (h : (pathOpenGraph ms).HasLabel v l) :
    l = .axis .X ∨ l = .axis .Y := by
  obtain ⟨m, hm, rfl⟩ := h
  have hm : PyDict.get? ((ms.zipIdx 0).map fun mi => (mi.2, Measurement.pauli ⟨mi.1.1, mi.1.2⟩)) v = some m := hm
  rw [path_get?, if_pos (Nat.zero_le _), Option.map_eq_some_iff] at hm
  obtain ⟨a, ha, rfl⟩ := hm
  have := hz a (List.mem_of_getElem? ha)
  obtain ⟨x, s⟩ := a
  cases x with
  | X => exact Or.inl rfl
  | Y => exact Or.inr rfl
  | Z => exact absurd rfl this

/-- Each node of the path is corrected by the next one. -/
theorem path_flow {ms : List (Axis × Sign)} (hz : ∀ m ∈ ms, m.1 ≠ .Z) : HasPauliFlow (pathOpenGraph ms) := by
  have hodd : ∀ w v, (pathOpenGraph ms).InOdd {w} v ↔ (pathOpenGraph ms).Adj v w := by
    intro w v
    unfold OpenGraph.InOdd
    by_cases hw : (pathOpenGraph ms).Adj v w
    · simp [Finset.filter_singleton, hw]
    · simp [Finset.filter_singleton, hw]
  have hn : ∀ u, u ∈ (pathOpenGraph ms).nodes → u ∉ (pathOpenGraph ms).outputs → u < ms.length := by
    intro u h1 h2
    simp only [pathOpenGraph, Finset.mem_range, List.mem_singleton] at h1 h2
    omega
  refine ⟨fun u => {u + 1}, (· < ·), ?_⟩
  refine { irrefl := fun a => lt_irrefl a, trans := fun a b c => lt_trans, image := ?_, p1 := ?_, p2 := ?_, p3 := ?_, p4 := ?_,
           p5 := ?_, p6 := ?_, p7 := ?_, p8 := ?_, p9 := ?_ }
  · intro u h1 h2 v hv
    rw [Finset.mem_singleton] at hv
    have := hn u h1 h2
    subst hv
    simp only [pathOpenGraph, Finset.mem_range, List.mem_singleton]; omega
  · intro u _ _ v hv _ _ _
    rw [Finset.mem_singleton] at hv; omega
  · intro u _ _ v _ hv hne _ _
    rw [hodd, path_adj] at hv; omega
  · intro u _ _ v hne _ hlt
    rw [hodd, path_adj, Finset.mem_singleton]; omega
  · intro u _ _ hl; rcases path_label hz hl with h | h <;> cases h
  · intro u _ _ hl; rcases path_label hz hl with h | h <;> cases h
  · intro u _ _ hl; rcases path_label hz hl with h | h <;> cases h
  · intro u h1 h2 _
    rw [hodd, path_adj]; exact Or.inl ⟨rfl, hn u h1 h2⟩
  · intro u _ _ hl; rcases path_label hz hl with h | h <;> cases h
  · intro u h1 h2 _
    have := hn u h1 h2
    rw [hodd, path_adj, Finset.mem_singleton]; omega

theorem sort_of_eq {s : Finset ℕ} {l : List ℕ} (hs : l.Pairwise (· < ·)) (hl : ∀ n, n ∈ l ↔ n ∈ s) : s.sort (· ≤ ·) = l := by
  refine List.Perm.eq_of_pairwise (le := (· ≤ ·)) (fun a b _ _ h1 h2 => le_antisymm h1 h2) (Finset.pairwise_sort _ _)
    (hs.imp le_of_lt) ?_
  rw [List.perm_ext_iff_of_nodup (Finset.sort_nodup _ _) (hs.imp ne_of_lt)]
  intro n
  rw [Finset.mem_sort, hl]

theorem path_cmds (ms : List (Axis × Sign)) : (pathOpenGraph ms).bareCmds =
    (List.range' 1 ms.length).map (Command.N · PlanarState.plus) ++ ((List.range ms.length).map (fun i => Command.E i (i + 1)) ++
      (List.range ms.length).map fun i => Command.M i ((pathOpenGraph ms).measOf i) ∅ ∅) := by
  have h1 : ((pathOpenGraph ms).nodes \ (pathOpenGraph ms).inputs.toFinset).sort (· ≤ ·) = List.range' 1 ms.length :=
    sort_of_eq List.pairwise_lt_range' (by intro n; simp [pathOpenGraph, List.mem_range'_1]; omega)
  have h2 : ((pathOpenGraph ms).nodes \ (pathOpenGraph ms).outputs.toFinset).sort (· ≤ ·) = List.range ms.length :=
    sort_of_eq List.pairwise_lt_range (by intro n; simp [pathOpenGraph]; omega)
  unfold OpenGraph.bareCmds
  rw [h1, h2]
  simp [pathOpenGraph]

theorem planar_plus (b : Bool) : PlanarState.plus.vec b = 1 / (Real.sqrt 2 : ℂ) := by
  rw [planar_plus_vec]
  simp [PlanarState.plus, PlanarState.vec, planarState]

/-- The path applies its gate to the input and moves the result to the output. -/
theorem path_linMap (ms : List (Axis × Sign)) (hlen : ms.length ≤ 3) {ψ : QState} (hψ : Absent (Finset.Icc 1 ms.length) ψ) :
    (pathOpenGraph ms).linMap ψ = (1 / (Real.sqrt 2 : ℂ)) ^ ms.length • ren (Equiv.swap 0 ms.length) (op1 (pathMat ms) 0 ψ) := by
  have hb : ∀ (b b' : Basis), b 0 = b' 0 → (∀ n, ms.length < n → b n = b' n) → ψ b = ψ b' := by
    intro b b' h0 h
    apply hψ
    intro n hn
    rw [Finset.mem_Icc] at hn
    by_cases hn0 : n = 0
    · rw [hn0, h0]
    · exact h n (by omega)
  have hsw : ∀ (b : Basis) a, ψ (update (b ∘ Equiv.swap 0 ms.length) 0 a) = ψ (update b 0 a) := by
    intro b a
    apply hb
    · simp
    · intro n hn
      rw [update_of_ne (by omega), update_of_ne (by omega), comp_apply, Equiv.swap_apply_of_ne_of_ne (by omega) (by omega)]
  unfold OpenGraph.linMap
  rw [path_cmds]
  match ms, hlen with
  | [], _ =>
    funext b
    simp [ren, pathMat, op1_one]
  | [m0], _ =>
    have hm0 : (pathOpenGraph [m0]).measOf 0 = .pauli ⟨m0.1, m0.2⟩ := rfl
    funext b
    simp only [List.length_singleton] at hsw
    simp only [List.length_singleton, List.range'_one, List.range_one, List.map_cons, List.map_nil, List.singleton_append, hm0,
      semCmds_cons, semCmds_nil, Command.sem, parity_empty, powB, Bool.false_eq_true, if_false, op1_one, projOut, cz, prep, planar_plus,
      pathMat, List.foldl_cons, List.foldl_nil, Matrix.mul_one, ren, op1, Pi.smul_apply, smul_eq_mul, stepMat, hsw,
      Function.comp_apply, Equiv.swap_apply_left, update_self]
    cases hb1 : b 1 <;> simp [hb1] <;> ring
  | [m0, m1], _ =>
    have hm0 : (pathOpenGraph [m0, m1]).measOf 0 = .pauli ⟨m0.1, m0.2⟩ := rfl
    have hm1 : (pathOpenGraph [m0, m1]).measOf 1 = .pauli ⟨m1.1, m1.2⟩ := rfl
    funext b
    simp only [List.length_cons, List.length_nil, Nat.zero_add, Nat.reduceAdd] at hsw hb
    have hb' : ∀ x y, ψ (update (update b 1 x) 0 y) = ψ (update b 0 y) := by
      intro x y
      apply hb
      · simp
      · intro n hn; simp [update_apply, show n ≠ 0 by omega, show n ≠ 1 by omega]
    have hr : List.range 2 = [0, 1] := rfl
    have hr' : List.range' 1 2 = [1, 2] := rfl
    simp only [List.length_cons, List.length_nil, Nat.zero_add, Nat.reduceAdd, hr, hr', List.map_cons, List.map_nil, List.cons_append,
      List.nil_append, hm0, hm1,
      semCmds_cons, semCmds_nil, Command.sem, parity_empty, powB, Bool.false_eq_true, if_false, op1_one, projOut, cz, prep, planar_plus,
      pathMat, List.foldl_cons, List.foldl_nil, Matrix.mul_one, ren, op1, Pi.smul_apply, smul_eq_mul, mul2_apply, stepMat, hsw,
      Function.comp_apply, Equiv.swap_apply_left, update_self, hb']
    cases hb1 : b 2 <;> simp [hb1] <;> ring
  | [m0, m1, m2], _ =>
    have hm0 : (pathOpenGraph [m0, m1, m2]).measOf 0 = .pauli ⟨m0.1, m0.2⟩ := rfl
    have hm1 : (pathOpenGraph [m0, m1, m2]).measOf 1 = .pauli ⟨m1.1, m1.2⟩ := rfl
    have hm2 : (pathOpenGraph [m0, m1, m2]).measOf 2 = .pauli ⟨m2.1, m2.2⟩ := rfl
    funext b
    simp only [List.length_cons, List.length_nil, Nat.zero_add, Nat.reduceAdd] at hsw hb
    have hb' : ∀ x z y, ψ (update (update (update b 2 x) 1 z) 0 y) = ψ (update b 0 y) := by
      intro x z y
      apply hb
      · simp
      · intro n hn; simp [update_apply, show n ≠ 0 by omega, show n ≠ 1 by omega, show n ≠ 2 by omega]
    have hr : List.range 3 = [0, 1, 2] := rfl
    have hr' : List.range' 1 3 = [1, 2, 3] := rfl
    simp only [List.length_cons, List.length_nil, Nat.zero_add, Nat.reduceAdd, hr, hr', List.map_cons, List.map_nil, List.cons_append,
      List.nil_append, hm0, hm1, hm2,
      semCmds_cons, semCmds_nil, Command.sem, parity_empty, powB, Bool.false_eq_true, if_false, op1_one, projOut, cz, prep, planar_plus,
      pathMat, List.foldl_cons, List.foldl_nil, Matrix.mul_one, ren, op1, Pi.smul_apply, smul_eq_mul, mul2_apply, stepMat, hsw,
      Function.comp_apply, Equiv.swap_apply_left, update_self, hb']
    cases hb1 : b 3 <;> simp [hb1] <;> ring

end Graphix
