import Verif.Proofs.ExtractPs

/-! The map of an open graph: generators and Pauli exponentials. -/

namespace Graphix
namespace Extract

open Function

theorem isMinus_eq {og : OpenGraph} {w : ℕ} {m : Measurement} (h : og.measurements.get? w = some m) : isMinus og w = m.isNeg := by
  unfold isMinus
  rw [h]
  cases m <;> rfl

theorem isMinus_out {og : OpenGraph} (hv : og.Valid) {w : ℕ} (h : w ∈ og.outputs) : isMinus og w = false := by
  have : og.measurements.get? w = none := by
    rw [PyDict.get?_eq_none_iff]
    intro hk
    have := (og.postInit_ok hv.post).1
    have hk' : w ∈ og.measurements.keys.toFinset := by simpa using hk
    rw [this] at hk'
    simp [h] at hk'
  unfold isMinus
  rw [this]

/-- The Pauli matrix of the set `S` on the node `w`. -/
noncomputable def pMat (og : OpenGraph) (S : Finset ℕ) (w : ℕ) : Mat2 := pmB (bit S w) (bit (og.oddSet S) w)

/-- Its restriction to the outputs. -/
noncomputable def dMat (og : OpenGraph) (S : Finset ℕ) (w : ℕ) : Mat2 := if w ∈ og.outputs then pMat og S w else 1

/-- The sign of the nodes `U` among those that the code counts. -/
def ownSign (og : OpenGraph) (S : Finset ℕ) (U : ℕ → Prop) [DecidablePred U] : Bool :=
  xorl (og.nodes.sort (· ≤ ·)) fun w => decide (U w) && ((bit S w || bit (og.oddSet S) w) && isMinus og w)

theorem ownSign_none (og : OpenGraph) (S : Finset ℕ) : ownSign og S (fun _ => False) = false := by
  unfold ownSign
  simp only [decide_false, Bool.false_and, xorl_false]

theorem ownSign_single {og : OpenGraph} {S : Finset ℕ} {u : ℕ} (hu : u ∈ og.nodes) :
    ownSign og S (· = u) = ((bit S u || bit (og.oddSet S) u) && isMinus og u) := by
  unfold ownSign
  rw [← xorl_single (l := og.nodes.sort (· ≤ ·)) (Finset.sort_nodup _ _) (by simpa using hu) fun w => (bit S w || bit (og.oddSet S) w) && isMinus og w]
  apply xorl_congr
  intro w _
  simp only [eq_comm]

/-- A stabilizer of the graph pulled through the measurements. -/
theorem pull {og : OpenGraph} (hv : og.Valid) (hloop : ∀ e ∈ og.edges, e.1 ≠ e.2) (S : Finset ℕ) (U : ℕ → Prop) [DecidablePred U]
    (hU : ∀ w, U w → w ∉ og.outputs) (B : ℕ → Mat2) (hO : ∀ w ∈ og.outputs, B w = 1)
    (hM : ∀ w ∈ og.nodes, w ∉ og.outputs → ¬ U w → B w * pMat og S w = sgn ((bit S w || bit (og.oddSet S) w) && isMinus og w) • B w)
    (φ : QState) :
    locOps (fun w => if U w then B w * pMat og S w else B w) (og.nodes.sort (· ≤ ·)) (czList og.edges φ) =
      sgn (Bool.xor (signOf og S) (ownSign og S U)) • locOps (dMat og S) (og.nodes.sort (· ≤ ·))
        (locOps B (og.nodes.sort (· ≤ ·)) (czList og.edges fun b => φ (flipOn (og.nodes.sort (· ≤ ·)) (bit S) b))) := by
  have hl : (og.nodes.sort (· ≤ ·)).Nodup := Finset.sort_nodup _ _
  have he : ∀ e ∈ og.edges, e.1 ∈ og.nodes.sort (· ≤ ·) ∧ e.2 ∈ og.nodes.sort (· ≤ ·) := by
    intro e hm
    simpa using hv.edge_mem e.1 e.2 hm
  rw [absorb hl (fun w => w ∈ og.outputs) U (fun w h h' => hU w h' h) B (pMat og S)
    (fun w => (bit S w || bit (og.oddSet S) w) && isMinus og w) (fun w => pmB_mul_self _ _) (fun w _ h => hO w h)
    (fun w hw h h' => hM w (by simpa using hw) h h')]
  have hs := stab_flip hl he (bit S) φ
  have hs' : locOps (pMat og S) (og.nodes.sort (· ≤ ·)) (czList og.edges φ) =
      sgn (stabSign og.edges (og.nodes.sort (· ≤ ·)) (bit S)) • czList og.edges fun b => φ (flipOn (og.nodes.sort (· ≤ ·)) (bit S) b) := by
    rw [← hs]
    apply locOps_congr
    intro n _
    rw [oddp_bit hv hloop]; rfl
  rw [hs', locOps_homog, locOps_homog, smul_smul, ← sgn_xor]
  refine congrArg₂ (· • ·) (congrArg sgn ?_) rfl
  unfold signOf ownSign
  rw [Bool.xor_assoc, ← xorl_xor, Bool.xor_comm]
  congr 1
  apply xorl_congr
  intro w _
  by_cases h1 : w ∈ og.outputs
  · simp [h1, isMinus_out hv h1]
  · by_cases h2 : U w
    · simp [h2]
    · simp [h1, h2]

/-- The nodes that are prepared. -/
def nsOf (og : OpenGraph) : List ℕ := (og.nodes \ og.inputs.toFinset).sort (· ≤ ·)

/-- The operator of the node `w`, when the planar measurements outside `A` have their angle replaced by 0. -/
noncomputable def braOf (og : OpenGraph) (A : List ℕ) (w : ℕ) : Mat2 :=
  if w ∈ og.outputs then 1 else bra (measVec (if w ∈ A then og.measOf w else (og.measOf w).zeroed) false)

/-- The map of the open graph, with these measurements. -/
noncomputable def tMap (og : OpenGraph) (A : List ℕ) (ψ : QState) : QState :=
  locOps (braOf og A) (og.nodes.sort (· ≤ ·)) (czList og.edges (prepList (nsOf og) ψ))

theorem linMap_tMap {og : OpenGraph} (hv : og.Valid) (hcl : og.cliffords = []) {A : List ℕ}
    (hA : ∀ u, u ∈ A ↔ u ∈ og.nodes ∧ u ∉ og.outputs) (ψ : QState) : og.linMap ψ = tMap og A ψ := by
  rw [linMap_eq hv hA (ns := nsOf og) (Finset.sort_nodup _ _) (by simp [nsOf]), tMap]
  apply locOps_congr
  intro w hw
  rw [hcl]
  unfold braOf
  by_cases h : w ∈ og.outputs
  · have : w ∉ A := fun h' => ((hA w).1 h').2 h
    simp [h, this]
  · have : w ∈ A := (hA w).2 ⟨by simpa using hw, h⟩
    simp [h, this]

theorem braOf_absorb {og : OpenGraph} {A : List ℕ} {w : ℕ} {m : Measurement} (hw : w ∉ og.outputs) (hm : og.measurements.get? w = some m) {x z : Bool}
    (hf : FocusedBits m.toPlaneOrAxis x z) (hA : w ∈ A → m.zeroed = m ∨ (x = false ∧ z = false)) :
    braOf og A w * pmB x z = sgn ((x || z) && isMinus og w) • braOf og A w := by
  have hmo : og.measOf w = m := by unfold OpenGraph.measOf; rw [hm]; rfl
  unfold braOf
  rw [if_neg hw, hmo, isMinus_eq hm]
  have h0 := bra_absorb hf
  by_cases h : w ∈ A
  · rw [if_pos h]
    rcases hA h with h | ⟨rfl, rfl⟩
    · rw [h] at h0; exact h0
    · simp [pmB]
  · rw [if_neg h]; exact h0

/-- The correction set `S` is focused on `u`: on the other measured nodes, it is a Pauli that the measurement (at angle 0)
absorbs. -/
def FocusedOn (og : OpenGraph) (S : Finset ℕ) (u : ℕ → Prop) : Prop :=
  ∀ w ∈ og.nodes, w ∉ og.outputs → ¬ u w → ∀ m, og.measurements.get? w = some m →
    FocusedBits m.toPlaneOrAxis (bit S w) (bit (og.oddSet S) w)

/-- The measurements with their angle that `S` meets are Pauli measurements. -/
def Later (og : OpenGraph) (A : List ℕ) (S : Finset ℕ) (u : ℕ → Prop) : Prop :=
  ∀ w ∈ A, ¬ u w → ∀ m, og.measurements.get? w = some m → m.zeroed = m ∨ (w ∉ S ∧ w ∉ og.oddSet S)

theorem exists_meas {og : OpenGraph} (hv : og.Valid) {w : ℕ} (hw : w ∈ og.nodes) (ho : w ∉ og.outputs) :
    ∃ m, og.measurements.get? w = some m := by
  have := (og.postInit_ok hv.post).1
  have hk : w ∈ og.measurements.keys := by
    have : w ∈ og.measurements.keys.toFinset := by rw [this]; simp [hw, ho]
    simpa using this
  exact Option.isSome_iff_exists.1 ((PyDict.get?_isSome_iff _ _).2 hk)

theorem pull_bra {og : OpenGraph} (hv : og.Valid) (hloop : ∀ e ∈ og.edges, e.1 ≠ e.2) {S : Finset ℕ} {U : ℕ → Prop} [DecidablePred U]
    (hU : ∀ w, U w → w ∉ og.outputs) {A : List ℕ} (hf : FocusedOn og S U) (hA : Later og A S U) (φ : QState) :
    locOps (fun w => if U w then braOf og A w * pMat og S w else braOf og A w) (og.nodes.sort (· ≤ ·)) (czList og.edges φ) =
      sgn (Bool.xor (signOf og S) (ownSign og S U)) • locOps (dMat og S) (og.nodes.sort (· ≤ ·))
        (locOps (braOf og A) (og.nodes.sort (· ≤ ·)) (czList og.edges fun b => φ (flipOn (og.nodes.sort (· ≤ ·)) (bit S) b))) := by
  refine pull hv hloop S U hU (braOf og A) (fun w h => by simp [braOf, h]) ?_ φ
  intro w hw ho hu
  obtain ⟨m, hm⟩ := exists_meas hv hw ho
  refine braOf_absorb ho hm (hf w hw ho hu m hm) fun h => ?_
  refine (hA w h hu m hm).imp id fun h => ?_
  simp [bit, h.1, h.2]

theorem flip_same {og : OpenGraph} {S : Finset ℕ} (hS : ∀ v ∈ S, v ∉ og.inputs) (hSn : S ⊆ og.nodes) {ψ : QState}
    (hψ : Absent (og.nodes \ og.inputs.toFinset) ψ) :
    (fun b => prepList (nsOf og) ψ (flipOn (og.nodes.sort (· ≤ ·)) (bit S) b)) = prepList (nsOf og) ψ := by
  funext b
  rw [prepList_apply, prepList_apply]
  congr 1
  apply hψ
  intro n hn
  have : n ∉ S := fun h => hn (by simp [hSn h, hS n h])
  simp [flipOn, bit, this]

theorem flip_input {og : OpenGraph} {S : Finset ℕ} {i : ℕ} (hi : i ∈ S) (hii : i ∈ og.inputs) (hS : ∀ v ∈ S, v ∈ og.inputs → v = i) (hSn : S ⊆ og.nodes) {ψ : QState}
    (hψ : Absent (og.nodes \ og.inputs.toFinset) ψ) :
    (fun b => prepList (nsOf og) ψ (flipOn (og.nodes.sort (· ≤ ·)) (bit S) b)) = prepList (nsOf og) (op1 Ops.X i ψ) := by
  funext b
  rw [prepList_apply, prepList_apply]
  congr 1
  have h1 : op1 Ops.X i ψ b = ψ (update b i (!b i)) := by
    unfold op1
    cases h : b i <;> simp [Ops.X]
  rw [h1]
  apply hψ
  intro n hn
  by_cases h : n = i
  · subst h
    simp [flipOn, bit, hi, hSn hi]
  · have : n ∉ S := by
      intro h'
      by_cases h2 : n ∈ og.inputs
      · exact h (hS n h' h2)
      · exact hn (by simp [hSn h', h2])
    simp [flipOn, bit, this, h]

/-- The Pauli of the flow on its own node, moved to the outputs. -/
theorem pull_own {og : OpenGraph} (hv : og.Valid) (hloop : ∀ e ∈ og.edges, e.1 ≠ e.2) {S : Finset ℕ} {u : ℕ} (hu : u ∈ og.nodes) (huo : u ∉ og.outputs)
    {A : List ℕ} (hf : FocusedOn og S (· = u)) (hA : Later og A S (· = u))
    (hS : ∀ v ∈ S, v ∉ og.inputs) (hSn : S ⊆ og.nodes) {ψ : QState} (hψ : Absent (og.nodes \ og.inputs.toFinset) ψ) :
    locOps (update (braOf og A) u (braOf og A u * pMat og S u)) (og.nodes.sort (· ≤ ·)) (czList og.edges (prepList (nsOf og) ψ)) =
      sgn (Bool.xor (signOf og S) ((bit S u || bit (og.oddSet S) u) && isMinus og u)) • locOps (dMat og S) (og.nodes.sort (· ≤ ·)) (tMap og A ψ) := by
  have h := pull_bra hv hloop (U := (· = u)) (by rintro w rfl; exact huo) hf hA (prepList (nsOf og) ψ)
  rw [flip_same hS hSn hψ, ownSign_single hu] at h
  rw [tMap, ← h]
  apply locOps_congr
  intro w _
  by_cases hw : w = u
  · subst hw; simp
  · simp [hw]

theorem op1_Z_apply (u : ℕ) (ψ : QState) (b : Basis) : op1 Ops.Z u ψ b = sgn (b u) * ψ b := by
  have hb : update b u (b u) = b := update_eq_self _ _
  unfold op1
  cases h : b u <;> rw [h] at hb <;> simp [Ops.Z, hb]

/-- `Z` on a measured input. -/
theorem tMap_Z {og : OpenGraph} (hv : og.Valid) (hloop : ∀ e ∈ og.edges, e.1 ≠ e.2) {S : Finset ℕ} {u : ℕ} (hu : u ∈ og.nodes) (huo : u ∉ og.outputs)
    {A : List ℕ} (hf : FocusedOn og S (· = u)) (hA : Later og A S (· = u))
    (hS : ∀ v ∈ S, v ∉ og.inputs) (hSn : S ⊆ og.nodes) (huS : u ∉ S) (huO : u ∈ og.oddSet S) {ψ : QState} (hψ : Absent (og.nodes \ og.inputs.toFinset) ψ) :
    tMap og A (op1 Ops.Z u ψ) = sgn (Bool.xor (signOf og S) (isMinus og u)) • locOps (dMat og S) (og.nodes.sort (· ≤ ·)) (tMap og A ψ) := by
  have ho := pull_own hv hloop hu huo hf hA hS hSn hψ
  have hbit : (bit S u || bit (og.oddSet S) u) = true := by simp [bit, huO]
  rw [hbit, Bool.true_and] at ho
  rw [← ho]
  have hz : pMat og S u = Ops.Z := by simp [pMat, bit, huS, huO, pmB]
  rw [hz, ← locOps_op1_right _ _ (Finset.sort_nodup _ _) (by simpa using hu), tMap]
  congr 1
  funext b
  rw [czList_apply, prepList_apply, op1_Z_apply, op1_Z_apply, czList_apply, prepList_apply]
  ring

/-- `X` on an input. -/
theorem tMap_X {og : OpenGraph} (hv : og.Valid) (hloop : ∀ e ∈ og.edges, e.1 ≠ e.2) {S : Finset ℕ} {i : ℕ}
    {A : List ℕ} (hf : FocusedOn og S (fun _ => False)) (hA : Later og A S (fun _ => False)) (hi : i ∈ S) (hii : i ∈ og.inputs)
    (hS : ∀ v ∈ S, v ∈ og.inputs → v = i) (hSn : S ⊆ og.nodes) {ψ : QState} (hψ : Absent (og.nodes \ og.inputs.toFinset) ψ) :
    tMap og A (op1 Ops.X i ψ) = sgn (signOf og S) • locOps (dMat og S) (og.nodes.sort (· ≤ ·)) (tMap og A ψ) := by
  have h := pull_bra hv hloop (U := fun _ => False) (by simp) hf hA (prepList (nsOf og) ψ)
  rw [flip_input hi hii hS hSn hψ, ownSign_none, Bool.xor_false] at h
  simp only [if_false] at h
  have hd : ∀ χ, locOps (dMat og S) (og.nodes.sort (· ≤ ·)) (locOps (dMat og S) (og.nodes.sort (· ≤ ·)) χ) = χ := by
    intro χ
    rw [locOps_mul _ _ (Finset.sort_nodup _ _)]
    rw [locOps_congr (G := fun _ => 1), locOps_one]
    intro n _
    unfold dMat
    split
    · exact pmB_mul_self _ _
    · simp
  have h2 := congrArg (fun χ => sgn (signOf og S) • locOps (dMat og S) (og.nodes.sort (· ≤ ·)) χ) h
  simp only [] at h2
  rw [locOps_homog, hd, smul_smul, ← sgn_xor] at h2
  simp only [Bool.xor_self, sgn_false, one_smul] at h2
  exact h2.symm

theorem locOps_update_add (F : ℕ → Mat2) (A B : Mat2) {n : ℕ} {l : List ℕ} (hl : l.Nodup) (hn : n ∈ l) (ψ : QState) :
    locOps (update F n (A + B)) l ψ = locOps (update F n A) l ψ + locOps (update F n B) l ψ := by
  induction l with
  | nil => simp at hn
  | cons a l ih =>
    rw [List.nodup_cons] at hl
    unfold locOps
    by_cases h : n = a
    · subst h
      have hc : ∀ C : Mat2, locOps (update F n C) l ψ = locOps F l ψ := fun C => locOps_congr (fun k hk => by
        have : k ≠ n := by rintro rfl; exact hl.1 hk
        rw [update_of_ne this]) ψ
      simp only [update_self, hc, op1_mat_add]
    · rw [ih hl.2 (by simpa [h] using hn), update_of_ne (Ne.symm h), update_of_ne (Ne.symm h), update_of_ne (Ne.symm h), op1_add]

/-- Turning on the angle of a planar measurement: a Pauli exponential on the outputs. -/
theorem tMap_exp {og : OpenGraph} (hv : og.Valid) (hloop : ∀ e ∈ og.edges, e.1 ≠ e.2) {S : Finset ℕ} {u : ℕ} (hu : u ∈ og.nodes) (huo : u ∉ og.outputs)
    {m : BlochMeasurement} (hm : og.measurements.get? u = some (.bloch m)) {A : List ℕ} (huA : u ∉ A) (hf : FocusedOn og S (· = u)) (hA : Later og A S (· = u))
    (hS : ∀ v ∈ S, v ∉ og.inputs) (hSn : S ⊆ og.nodes) (hx : bit S u = planeX m.plane) (hz : bit (og.oddSet S) u = planeZ m.plane) :
    OpPhaseEqOn (Absent (og.nodes \ og.inputs.toFinset)) (tMap og (A ++ [u])) fun ψ =>
      (Real.cos (m.angle / 2 * Real.pi) : ℂ) • tMap og A ψ + (Complex.I * Real.sin (m.angle / 2 * Real.pi)) •
        sgn (Bool.xor (signOf og S) (decide (m.plane = .YZ))) • locOps (dMat og S) (og.nodes.sort (· ≤ ·)) (tMap og A ψ) := by
  have hmo : og.measOf u = .bloch m := by unfold OpenGraph.measOf; rw [hm]; rfl
  have hb : braOf og (A ++ [u]) = update (braOf og A) u (bra (measVec (.bloch m) false)) := by
    funext w
    by_cases hw : w = u
    · subst hw; simp [braOf, huo, hmo]
    · simp [braOf, hw]
  have hb0 : braOf og A u = bra (measVec (.bloch ⟨0, m.plane⟩) false) := by
    simp [braOf, huo, hmo, huA, Measurement.zeroed]
  obtain ⟨c, hc, he⟩ := bra_exp m.angle m.plane
  refine ⟨c, hc, fun ψ hψ => ?_⟩
  have hl : (og.nodes.sort (· ≤ ·)).Nodup := Finset.sort_nodup _ _
  have hul : u ∈ og.nodes.sort (· ≤ ·) := by simpa using hu
  have ho := pull_own hv hloop hu huo hf hA hS hSn hψ
  have hnm : isMinus og u = false := by rw [isMinus_eq hm]; rfl
  rw [hnm, Bool.and_false, Bool.xor_false] at ho
  rw [tMap, hb, show (Measurement.bloch m) = .bloch ⟨m.angle, m.plane⟩ from rfl, he, locOps_update_smul _ _ _ hl hul,
    locOps_update_add _ _ _ hl hul, locOps_update_smul _ _ _ hl hul, locOps_update_smul _ _ _ hl hul, locOps_update_smul _ _ _ hl hul]
  have hp : pMat og S u = pmB (planeX m.plane) (planeZ m.plane) := by rw [pMat, hx, hz]
  rw [hp] at ho
  rw [← hb0, ho, update_eq_self, smul_smul (sgn (decide (m.plane = .YZ))), ← sgn_xor, Bool.xor_comm]
  rfl

theorem tMap_pauli {og : OpenGraph} {u : ℕ} {m : PauliMeasurement} (hm : og.measurements.get? u = some (.pauli m)) (A : List ℕ) :
    tMap og (A ++ [u]) = tMap og A := by
  have hmo : og.measOf u = .pauli m := by unfold OpenGraph.measOf; rw [hm]; rfl
  have hb : braOf og (A ++ [u]) = braOf og A := by
    funext w
    by_cases hw : w = u
    · subst hw; simp [braOf, hmo, Measurement.zeroed]
    · simp [braOf, hw]
  funext ψ
  rw [tMap, tMap, hb]

end Extract
end Graphix
