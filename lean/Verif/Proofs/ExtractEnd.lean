import Verif.Proofs.ExtractOk
import Verif.Proofs.Unique
import Verif.Proofs.NeverZero
import Verif.Props.Determinism

/-! The images of the generators commute as the generators do, and determine the map. -/

namespace Graphix

open Function

theorem locOps_add' (F : ℕ → Mat2) (l : List ℕ) (ψ φ : QState) : locOps F l (ψ + φ) = locOps F l ψ + locOps F l φ := by
  induction l with
  | nil => rfl
  | cons a l ih => unfold locOps; rw [ih, op1_add]

namespace Extract

theorem wMap_homog (og : OpenGraph) (A : List ℕ) : Homog (wMap og A) := by
  intro c ψ
  have h1 : czList og.edges (prepList (nsOf og) (onWires og.inputs (c • ψ))) = c • czList og.edges (prepList (nsOf og) (onWires og.inputs ψ)) := by
    funext b
    rw [Pi.smul_apply, czList_apply, prepList_apply, czList_apply, prepList_apply]
    simp only [onWires, Pi.smul_apply, smul_eq_mul]
    ring
  unfold wMap tMap
  rw [h1, locOps_homog]
  rfl

theorem wMap_add (og : OpenGraph) (A : List ℕ) (ψ φ : QState) : wMap og A (ψ + φ) = wMap og A ψ + wMap og A φ := by
  have h1 : czList og.edges (prepList (nsOf og) (onWires og.inputs (ψ + φ))) =
      czList og.edges (prepList (nsOf og) (onWires og.inputs ψ)) + czList og.edges (prepList (nsOf og) (onWires og.inputs φ)) := by
    funext b
    rw [Pi.add_apply, czList_apply, prepList_apply, czList_apply, prepList_apply, czList_apply, prepList_apply]
    simp only [onWires, Pi.add_apply]
    ring
  unfold wMap tMap
  rw [h1, locOps_add']
  rfl

/-- The order of the compilation lists the measured nodes. -/
theorem mem_nodeOrder {f : Flow} (hf : IsPauliFlow f) (hv : f.og.Valid) (hout : f.og.outputs ≠ []) {ord : SetOrd} (ho : ord.Valid) (d : PauliExponentialDAG)
    (hd : d.layers = f.layers) (u : ℕ) : u ∈ Pexp.nodeOrder d ord ↔ u ∈ f.og.nodes ∧ u ∉ f.og.outputs := by
  rw [(Pexp.C49_order d ord ho).1, hd]
  have h0 := hf.layers.outputs hout
  have hdis := hf.layers.disjoint
  constructor
  · rintro ⟨i, L, hL, hu⟩
    refine ⟨(hf.layers.cover u).2 ⟨L, List.mem_of_getElem? hL, hu⟩, fun huo => ?_⟩
    cases hl : f.layers with
    | nil => rw [hl] at h0; simp at h0
    | cons K T =>
      rw [hl] at h0 hL hdis
      obtain rfl : K = f.og.outputs.toFinset := by simpa using h0
      rw [List.getElem?_cons_succ] at hL
      exact Finset.disjoint_left.1 ((List.pairwise_cons.1 hdis).1 L (List.mem_of_getElem? hL)) (by simpa using huo) hu
  · rintro ⟨hn, huo⟩
    obtain ⟨L, hL, hu⟩ := (hf.layers.cover u).1 hn
    obtain ⟨i, hi⟩ := List.getElem?_of_mem hL
    cases i with
    | zero =>
      rw [List.head?_eq_getElem?, hi] at h0
      obtain rfl := Option.some.inj h0
      exact absurd (by simpa using hu) huo
    | succ i => exact ⟨i, L, hi, hu⟩

theorem pexp_zero (e : PauliExponential) : e.op 0 = 0 := by
  have := Pexp.op_homog e 0 0
  simpa using this

/-- The map at angle 0 is not zero. -/
theorem wMap_ne {f : Flow} (hf : IsPauliFlow f) (hk : f.corr.keys.Nodup) (hv : f.og.Valid) (hloop : ∀ v, (v, v) ∉ f.og.edges)
    {ord : SetOrd} (ho : ord.Valid) (hcl : f.og.cliffords = []) {N : List ℕ} (hN : ∀ u, u ∈ N ↔ u ∈ f.og.nodes ∧ u ∉ f.og.outputs)
    {E : ℕ → PauliExponential} (hE : OpPhaseEq (wMap f.og N) fun ψ => N.foldl (fun φ u => (E u).op φ) (wMap f.og [] ψ)) :
    wMap f.og [] (fun _ => 1) ≠ 0 := by
  intro h0
  have hloop' : ∀ e ∈ f.og.edges, e.1 ≠ e.2 := fun e he hh => hloop e.1 (by rw [show (e.1, e.1) = e from Prod.ext rfl hh]; exact he)
  obtain ⟨xz, h1, h2, -, -, h3⟩ := C30_pauliflow f hv hloop' hk ord ho ((C29_pauliflow f hv hk ord ho).2 hf)
  obtain ⟨q, -, q1, q2, q3, q4, q5, q6, q7, q8⟩ := h3 none (by simp)
  rw [h2] at q3 q4 q5 q7
  have hone : (fun _ => 1 : QState) ≠ 0 := fun h => one_ne_zero (congrFun h fun _ => false)
  obtain ⟨r, hr⟩ := exists_branch ((checkRunnability_iff _).1 q1) hone fun _ _ _ _ => rfl
  obtain ⟨c, hc, h4⟩ := q7 r
  rw [h4 _ fun _ _ _ => rfl, linMap_tMap hv hcl hN] at hr
  have h5 : tMap f.og N (fun _ => 1) = onWires f.og.outputs (wMap f.og N fun _ => 1) := (onWires_wMap hv N fun _ => 1).symm
  obtain ⟨a, ha, h6⟩ := hE
  have h7 : ∀ M : List ℕ, M.foldl (fun φ u => (E u).op φ) 0 = 0 := by
    intro M
    induction M with
    | nil => rfl
    | cons u M ih => rw [List.foldl_cons, pexp_zero, ih]
  have h8 : wMap f.og N (fun _ => 1) = 0 := by
    have := h6 fun _ => 1
    simp only [h0, h7, smul_zero] at this
    exact this
  rw [h5, h8] at hr
  apply hr
  funext b
  simp [onWires]

/-- Two Pauli strings that are the images of operators that commute or anticommute do the same. -/
theorem comm_images {p q : PauliString} {n : ℕ} (hp : p.Valid) (hq : q.Valid) (dp : p.dim = n) (dq : q.dim = n) {W A B : QState → QState} {φ : QState} (hW : W φ ≠ 0)
    (hA : ∀ ψ, W (A ψ) = p.op (W ψ)) (hB : ∀ ψ, W (B ψ) = q.op (W ψ)) (hh : Homog W) {w : ZMod 2} (hAB : ∀ ψ, A (B ψ) = sg2 w • B (A ψ)) (ψ : QState) :
    p.op (q.op ψ) = sg2 w • q.op (p.op ψ) := by
  obtain ⟨t, ht, -⟩ := PauliString.toTableau_spec p hp
  obtain ⟨t', ht', -⟩ := PauliString.toTableau_spec q hq
  have hc := fun χ => Berg.comm_of_symp hp hq dp dq ht ht' χ
  have hne : q.op (p.op (W φ)) ≠ 0 := by
    intro h
    have h2 : p.op (p.op (W φ)) = W φ := by
      rw [PauliString.op_toTableau hp ht, PauliString.op_toTableau hp ht, rowOp_mul_self]
    have h3 : q.op (q.op (p.op (W φ))) = p.op (W φ) := by
      rw [PauliString.op_toTableau hq ht', PauliString.op_toTableau hq ht', rowOp_mul_self]
    have hz : ∀ r : PauliString, r.op 0 = 0 := by
      intro r
      have : r.op ((0 : ℂ) • (0 : QState)) = (0 : ℂ) • r.op 0 := by
        unfold PauliString.op
        rw [← locOps_foldr, ← locOps_foldr, locOps_homog, smul_comm]
      simpa using this
    rw [h, hz] at h3
    rw [← h3, hz] at h2
    exact hW h2.symm
  have h1 : p.op (q.op (W φ)) = sg2 w • q.op (p.op (W φ)) := by
    rw [← hB, ← hA, hAB, hh, hB, hA]
  rw [hc] at h1
  rw [hc]
  have : sg2 (symp n t t') = sg2 w := by
    by_contra hn
    apply hne
    have h2 : (sg2 (symp n t t') - sg2 w) • q.op (p.op (W φ)) = 0 := by rw [sub_smul, h1, sub_self]
    exact (smul_eq_zero.1 h2).resolve_left (sub_ne_zero.2 hn)
  rw [this]

theorem XX_comm (i j : ℕ) (ψ : QState) : op1 Ops.X i (op1 Ops.X j ψ) = sg2 0 • op1 Ops.X j (op1 Ops.X i ψ) := by
  rw [sg2_zero, one_smul]
  by_cases h : i = j
  · subst h; rfl
  · exact op1_comm _ _ h _

theorem ZZ_comm (i j : ℕ) (ψ : QState) : op1 Ops.Z i (op1 Ops.Z j ψ) = sg2 0 • op1 Ops.Z j (op1 Ops.Z i ψ) := by
  rw [sg2_zero, one_smul]
  by_cases h : i = j
  · subst h; rfl
  · exact op1_comm _ _ h _

theorem XZ_comm (i j : ℕ) (ψ : QState) : op1 Ops.X i (op1 Ops.Z j ψ) = sg2 (if i = j then 1 else 0) • op1 Ops.Z j (op1 Ops.X i ψ) := by
  by_cases h : i = j
  · subst h
    have : Ops.X * Ops.Z = (-1 : ℂ) • (Ops.Z * Ops.X) := by
      unfold Ops.X Ops.Z
      rw [mat2_mul, mat2_mul]
      apply mat2_ext <;> simp
    rw [op1_mul, op1_mul, this, op1_mat_smul, if_pos rfl]
    simp [sg2]
  · rw [if_neg h, sg2_zero, one_smul]
    exact op1_comm _ _ h _

/-- The images of the generators are those of a Clifford map. -/
theorem cliffordMap_valid {W : QState → QState} {φ : QState} (hW : W φ ≠ 0) (hh : Homog W) {n : ℕ} {cm : CliffordMap} (h1 : cm.inputs.length = n) (h2 : cm.outputs.length = n)
    (h3 : cm.xMap.length = n) (h4 : cm.zMap.length = n)
    (hx : ∀ k p, cm.xMap[k]? = some p → p.Valid ∧ p.dim = n ∧ ∀ ψ, W (op1 Ops.X k ψ) = p.op (W ψ))
    (hz : ∀ k p, cm.zMap[k]? = some p → p.Valid ∧ p.dim = n ∧ ∀ ψ, W (op1 Ops.Z k ψ) = p.op (W ψ)) : cm.Valid n := by
  refine ⟨h1, h2, h3, h4, ?_, ?_, ?_, ?_, ?_⟩
  · intro p hp
    obtain ⟨k, hk⟩ := List.getElem?_of_mem hp
    exact ⟨(hx k p hk).1, (hx k p hk).2.1⟩
  · intro p hp
    obtain ⟨k, hk⟩ := List.getElem?_of_mem hp
    exact ⟨(hz k p hk).1, (hz k p hk).2.1⟩
  · intro p hp q hq ψ
    obtain ⟨k, hk⟩ := List.getElem?_of_mem hp
    obtain ⟨j, hj⟩ := List.getElem?_of_mem hq
    obtain ⟨a1, a2, a3⟩ := hx k p hk
    obtain ⟨b1, b2, b3⟩ := hx j q hj
    rw [comm_images a1 b1 a2 b2 hW a3 b3 hh (XX_comm k j), sg2_zero, one_smul]
  · intro p hp q hq ψ
    obtain ⟨k, hk⟩ := List.getElem?_of_mem hp
    obtain ⟨j, hj⟩ := List.getElem?_of_mem hq
    obtain ⟨a1, a2, a3⟩ := hz k p hk
    obtain ⟨b1, b2, b3⟩ := hz j q hj
    rw [comm_images a1 b1 a2 b2 hW a3 b3 hh (ZZ_comm k j), sg2_zero, one_smul]
  · intro i j p q hi hj
    obtain ⟨a1, a2, a3⟩ := hx i p hi
    obtain ⟨b1, b2, b3⟩ := hz j q hj
    have := comm_images a1 b1 a2 b2 hW a3 b3 hh (XZ_comm i j)
    split
    · next h => intro ψ; rw [this, if_pos h]; simp [sg2]
    · next h => intro ψ; rw [this, if_neg h, sg2_zero, one_smul]

end Extract
end Graphix
