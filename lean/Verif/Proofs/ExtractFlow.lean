import Verif.Proofs.ExtractWire
import Verif.Spec.Focused

/-! The flow gives the generators and the exponentials. -/

namespace Graphix

open Function

theorem Pexp.op_homog (e : PauliExponential) (c : ℂ) (ψ : QState) : e.op (c • ψ) = c • e.op ψ := by
  have h : e.ps.op (c • ψ) = c • e.ps.op ψ := by
    unfold PauliString.op
    rw [← locOps_foldr, ← locOps_foldr, locOps_homog, smul_comm]
  unfold PauliExponential.op
  rw [h, smul_comm _ c, smul_comm _ c, ← smul_add]

namespace Extract

/-- `p` is the Pauli string of the set `S` for a node with label `lb`. -/
structure PsSpec (og : OpenGraph) (S : Finset ℕ) (lb : Label) (p : PauliString) : Prop where
  valid : p.Valid
  dim : p.dim = og.outputs.length
  mat : ∀ v ∈ og.outputs, p.mat (og.outputs.idxOf v) = pMat og S v
  sign : p.sign.toComplex = sgn (Bool.xor (signOf og S) (decide (lb = .plane .YZ)))

theorem focusedOn_of {f : Flow} (hf : f.Focused) {u : ℕ} {S : Finset ℕ} (hu : f.corr.get? u = some S) : FocusedOn f.og S (· = u) := by
  intro w hw ho hne m hm
  obtain ⟨h1, h2, h3⟩ := hf u S hu w m.toPlaneOrAxis hne ⟨m, hm, rfl⟩
  refine ⟨fun h => h1 (by simpa [bit] using h), fun h => h2 ?_, fun h => ?_⟩
  · rw [← OpenGraph.mem_oddSet]; simpa [bit] using h
  · unfold bit
    rw [decide_eq_decide, OpenGraph.mem_oddSet]
    exact h3 h

theorem sub_nodes {f : Flow} (hf : FlowBase f) {u : ℕ} {S : Finset ℕ} (hu : f.corr.get? u = some S) : S ⊆ f.og.nodes :=
  fun v hv => (hf.image u S v hu hv).1

theorem own_bits {f : Flow} (hf : IsPauliFlow f) {u : ℕ} {S : Finset ℕ} (hu : f.corr.get? u = some S) {m : BlochMeasurement}
    (hm : f.og.measurements.get? u = some (.bloch m)) : bit S u = planeX m.plane ∧ bit (f.og.oddSet S) u = planeZ m.plane := by
  have hb : bit (f.og.oddSet S) u = true ↔ f.og.InOdd S u := by unfold bit; rw [decide_eq_true_eq, OpenGraph.mem_oddSet]
  have ha : bit S u = true ↔ u ∈ S := by unfold bit; rw [decide_eq_true_eq]
  obtain ⟨α, p⟩ := m
  have hl : f.og.HasLabel u (.plane p) := ⟨_, hm, rfl⟩
  cases p
  · obtain ⟨h1, h2⟩ := hf.p4 u S hu hl; exact ⟨Bool.eq_false_iff.2 fun h => h1 (ha.1 h), hb.2 h2⟩
  · obtain ⟨h1, h2⟩ := hf.p6 u S hu hl; exact ⟨ha.2 h1, Bool.eq_false_iff.2 fun h => h2 (hb.1 h)⟩
  · obtain ⟨h1, h2⟩ := hf.p5 u S hu hl; exact ⟨ha.2 h1, hb.2 h2⟩

theorem own_input {f : Flow} (hf : IsPauliFlow f) {u : ℕ} {S : Finset ℕ} (hu : f.corr.get? u = some S) (hi : u ∈ f.og.inputs)
    {m : Measurement} (hm : f.og.measurements.get? u = some m) : u ∉ S ∧ u ∈ f.og.oddSet S ∧ m.toPlaneOrAxis ≠ .plane .YZ := by
  have hS : u ∉ S := fun h => (hf.image u S u hu h).2 hi
  have hl : f.og.HasLabel u m.toPlaneOrAxis := ⟨_, hm, rfl⟩
  rw [OpenGraph.mem_oddSet]
  refine ⟨hS, ?_⟩
  cases h : m.toPlaneOrAxis with
  | plane p =>
    rw [h] at hl
    cases p
    · exact ⟨(hf.p4 u S hu hl).2, by simp⟩
    · exact absurd (hf.p6 u S hu hl).1 hS
    · exact absurd (hf.p5 u S hu hl).1 hS
  | axis a =>
    rw [h] at hl
    cases a
    · exact ⟨hf.p7 u S hu hl, by simp⟩
    · exact ⟨by have := hf.p9 u S hu hl; tauto, by simp⟩
    · exact absurd (hf.p8 u S hu hl) hS

/-- The planar measurements that the correction of `u` meets come after `u`. -/
theorem later_of {f : Flow} (hf : IsPauliFlow f) (hv : f.og.Valid) (hout : f.og.outputs ≠ []) {ord : SetOrd} (ho : ord.Valid) (d : PauliExponentialDAG)
    (hd : d.layers = f.layers) {u : ℕ} {S : Finset ℕ} (hu : f.corr.get? u = some S) {pre suf : List ℕ}
    (hsplit : Pexp.nodeOrder d ord = pre ++ u :: suf) : Later f.og pre S (· = u) := by
  obtain ⟨-, hord, hnd⟩ := Pexp.C49_order d ord ho
  have hnd := hnd (hd ▸ hf.layers.disjoint)
  intro w hw hne m hm
  cases m with
  | pauli m => exact Or.inl rfl
  | bloch m =>
    right
    obtain ⟨α, p⟩ := m
    have hl : ∀ a, ¬ f.og.HasLabel w (.axis a) := by
      rintro a ⟨m', h1, h2⟩
      rw [hm] at h1
      obtain rfl := Option.some.inj h1
      simp [Measurement.toPlaneOrAxis] at h2
    have hwk : w ∈ f.og.nodes ∧ w ∉ f.og.outputs := by
      have hk : w ∈ f.og.measurements.keys := (PyDict.get?_isSome_iff _ _).1 (by rw [hm]; rfl)
      have := (f.og.postInit_ok hv.post).1
      have hk' : w ∈ f.og.measurements.keys.toFinset := by simpa using hk
      rw [this] at hk'
      simpa using hk'
    have hnb : ¬ Before f.layers u w := by
      rintro ⟨i, j, K, L, hK, hL, hji, huK, hwL⟩
      have hj : j ≠ 0 := by
        rintro rfl
        have h0 := hf.layers.outputs hout
        rw [List.head?_eq_getElem?, hL] at h0
        obtain rfl := Option.some.inj h0
        exact hwk.2 (by simpa using hwL)
      obtain ⟨j, rfl⟩ := Nat.exists_eq_succ_of_ne_zero hj
      obtain ⟨i, rfl⟩ := Nat.exists_eq_succ_of_ne_zero (show i ≠ 0 by omega)
      have hsub := hord j i L K (by omega) (by rw [hd]; exact hL) (by rw [hd]; exact hK) u huK w hwL
      rw [hsplit] at hsub hnd
      have hnd' := hnd
      rw [List.nodup_append] at hnd
      obtain ⟨-, h2, h3⟩ := hnd
      -- `w` would be twice in the list
      have hu_pre : u ∉ pre := fun h => h3 u h u (by simp) rfl
      have hcount : [u, w].Sublist (u :: suf) := by
        clear hord hsplit hnd' h2
        revert hu_pre hsub
        clear hw h3
        induction pre with
        | nil => intro h _; exact h
        | cons a pre ih =>
          intro h hn
          rw [List.cons_append] at h
          rcases List.sublist_cons_iff.1 h with h | ⟨r, hr, h⟩
          · exact ih h fun hm => hn (by simp [hm])
          · injection hr with e1 e2
            exact absurd e1 (by rintro rfl; exact hn (by simp))
      have hws : w ∈ u :: suf := hcount.subset (by simp)
      exact h3 w hw w hws rfl
    constructor
    · intro hwS
      exact hnb (hf.p1 u S hu w hwS hne (hl _) (hl _))
    · intro hwO
      rw [OpenGraph.mem_oddSet] at hwO
      exact hnb (hf.p2 u S hu w hwk.1 hwO hne (hl _) (hl _))

/-- The exponentials: the map of the open graph is the map at angle 0 followed by the exponentials, in the order of the
compilation. -/
theorem wMap_order {f : Flow} (hf : IsPauliFlow f) (hfoc : f.Focused) (hv : f.og.Valid) (hloop : ∀ e ∈ f.og.edges, e.1 ≠ e.2) (hout : f.og.outputs ≠ [])
    {ord : SetOrd} (ho : ord.Valid) (d : PauliExponentialDAG) (hd : d.layers = f.layers) (E : ℕ → PauliExponential)
    (hE : ∀ u ∈ Pexp.nodeOrder d ord, ∃ S m, f.corr.get? u = some S ∧ f.og.measurements.get? u = some m ∧
      PsSpec f.og S m.toPlaneOrAxis (E u).ps ∧ (E u).angle = match m with | .bloch m => m.angle / 2 | .pauli _ => 0) :
    ∀ pre suf, Pexp.nodeOrder d ord = pre ++ suf →
      OpPhaseEq (wMap f.og pre) fun ψ => pre.foldl (fun φ u => (E u).op φ) (wMap f.og [] ψ) := by
  have hnd := (Pexp.C49_order d ord ho).2.2 (hd ▸ hf.layers.disjoint)
  intro pre
  induction pre using List.reverseRecOn with
  | nil => intro suf _; exact OpPhaseEq.refl _
  | append_singleton pre u ih =>
    intro suf hsplit
    rw [List.append_assoc, List.singleton_append] at hsplit
    obtain ⟨c, hc, ih⟩ := ih _ hsplit
    obtain ⟨S, m, hS, hm, hps, hang⟩ := hE u (by rw [hsplit]; simp)
    have hun := (hf.domain u).1 ⟨S, hS⟩
    have huA : u ∉ pre := by
      rw [hsplit, List.nodup_append] at hnd
      exact fun h => hnd.2.2 u h u (by simp) rfl
    cases m with
    | pauli m =>
      refine ⟨c, hc, fun ψ => ?_⟩
      have h1 : wMap f.og (pre ++ [u]) ψ = wMap f.og pre ψ := by unfold wMap; rw [tMap_pauli hm]
      rw [h1, ih]
      congr 1
      show _ = List.foldl _ _ (pre ++ [u])
      rw [List.foldl_append]
      simp only [List.foldl_cons, List.foldl_nil]
      unfold PauliExponential.op
      rw [hang]; simp
    | bloch m =>
      obtain ⟨hx, hz⟩ := own_bits hf hS hm
      obtain ⟨a, ha, hexp⟩ := tMap_exp hv hloop hun.1 hun.2 hm huA (focusedOn_of hfoc hS) (later_of hf hv hout ho d hd hS hsplit)
        (fun v hv => (hf.image u S v hS hv).2) (sub_nodes hf.toFlowBase hS) hx hz
      refine ⟨a * c, by rw [norm_mul, ha, hc, one_mul], fun ψ => ?_⟩
      have h1 : wMap f.og (pre ++ [u]) ψ = a • (E u).op (wMap f.og pre ψ) := by
        unfold wMap
        rw [hexp _ (inputs_absent _ _)]
        have hsg : (E u).ps.sign.toComplex = sgn (Bool.xor (signOf f.og S) (decide (m.plane = .YZ))) := by
          rw [hps.sign]
          congr 2
          simp [Measurement.toPlaneOrAxis]
        unfold PauliExponential.op
        rw [hang, ← offWires_dMat hv hps.dim hps.mat hsg]
        rfl
      rw [h1, ih, Pexp.op_homog, smul_smul]
      congr 1
      show _ = List.foldl _ _ (pre ++ [u])
      rw [List.foldl_append]
      rfl

theorem wMap_Z {f : Flow} (hf : IsPauliFlow f) (hfoc : f.Focused) (hv : f.og.Valid) (hloop : ∀ e ∈ f.og.edges, e.1 ≠ e.2)
    {u k : ℕ} {S : Finset ℕ} (hu : f.corr.get? u = some S) (hk : f.og.inputs[k]? = some u) {m : Measurement} (hm : f.og.measurements.get? u = some m)
    {p : PauliString} (hp : PsSpec f.og S m.toPlaneOrAxis p) (ψ : QState) :
    wMap f.og [] (op1 Ops.Z k ψ) = sgn m.isNeg • p.op (wMap f.og [] ψ) := by
  have hi := List.mem_of_getElem? hk
  obtain ⟨h1, h2, h3⟩ := own_input hf hu hi hm
  have hun := (hf.domain u).1 ⟨S, hu⟩
  obtain ⟨-, -, -, hin, -, -⟩ := f.og.postInit_ok hv.post
  unfold wMap
  rw [onWires_op1 hin hk, tMap_Z hv hloop hun.1 hun.2 (focusedOn_of hfoc hu) (by intro w hw; simp at hw)
    (fun v hv => (hf.image u S v hu hv).2) (sub_nodes hf.toFlowBase hu) h1 h2 (inputs_absent _ _)]
  rw [isMinus_eq hm, Bool.xor_comm, sgn_xor, ← smul_smul]
  show sgn m.isNeg • offWires f.og.outputs _ = _
  congr 1
  exact offWires_dMat hv hp.dim hp.mat (by rw [hp.sign]; simp [h3]) _

theorem wMap_Z_out {og : OpenGraph} (hv : og.Valid) {u k : ℕ} (hk : og.inputs[k]? = some u) (hu : u ∈ og.outputs) (A : List ℕ) (ψ : QState) :
    wMap og A (op1 Ops.Z k ψ) = op1 Ops.Z (og.outputs.idxOf u) (wMap og A ψ) := by
  obtain ⟨-, -, ho, hin, -, -⟩ := og.postInit_ok hv.post
  unfold wMap
  rw [onWires_op1 hin hk, ← offWires_op1 hu]
  congr 1
  have hul : u ∈ og.nodes.sort (· ≤ ·) := by simpa using ho (by simpa using hu)
  have hl : (og.nodes.sort (· ≤ ·)).Nodup := Finset.sort_nodup _ _
  have h1 : czList og.edges (prepList (nsOf og) (op1 Ops.Z u (onWires og.inputs ψ))) =
      op1 Ops.Z u (czList og.edges (prepList (nsOf og) (onWires og.inputs ψ))) := by
    funext b
    rw [czList_apply, prepList_apply, op1_Z_apply, op1_Z_apply, czList_apply, prepList_apply]
    ring
  unfold tMap
  rw [h1, locOps_op1_right _ _ hl hul, op1_locOps _ _ hl hul]
  have : braOf og A u = 1 := by simp [braOf, hu]
  rw [this, one_mul, mul_one]

end Extract
end Graphix
