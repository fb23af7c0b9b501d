import Verif.Proofs.LocalOps
import Verif.Proofs.FlowCheck2
import Verif.Spec.OpenGraphMap

/-! Determinism of patterns whose corrections complete products of stabilizers. -/

namespace Graphix

open Function

theorem pauliXZ_mul (a b c d : Bool) : MatPhaseEq (pauliXZ a b * pauliXZ c d) (pauliXZ (Bool.xor a c) (Bool.xor b d)) := by
  refine ⟨sgn (b && c), sgn_norm _, ?_⟩
  unfold pauliXZ
  cases a <;> cases b <;> cases c <;> cases d <;>
    · apply mat2_ext <;> simp [powB, mul2_apply, Ops.X, Ops.Z]

theorem pauliXZ_false : pauliXZ false false = 1 := by simp [pauliXZ, powB]

/-- The Pauli `X^x Z^z` commutes (`s = false`) or anticommutes (`s = true`) with every observable of the label. -/
def Flips (l : Label) (x z s : Bool) : Prop :=
  match l with
  | .plane .XY => x = false ∧ z = s
  | .plane .XZ => x = s ∧ z = s
  | .plane .YZ => x = s ∧ z = false
  | .axis .X => z = s
  | .axis .Y => Bool.xor x z = s
  | .axis .Z => x = s

theorem Flips.zero (l : Label) : Flips l false false false := by
  cases l with
  | plane p => cases p <;> simp [Flips]
  | axis a => cases a <;> simp [Flips]

theorem Flips.add {l : Label} {x z s x' z' s' : Bool} (h : Flips l x z s) (h' : Flips l x' z' s') :
    Flips l (Bool.xor x x') (Bool.xor z z') (Bool.xor s s') := by
  cases l with
  | plane p => cases p <;> simp only [Flips] at * <;> (obtain ⟨rfl, rfl⟩ := h; obtain ⟨rfl, rfl⟩ := h'; simp)
  | axis a =>
    cases a <;> simp only [Flips] at *
    · rw [h, h']
    · subst h; subst h'; cases x <;> cases z <;> cases x' <;> cases z' <;> rfl
    · rw [h, h']

theorem Flips.observable {m : Measurement} {x z s : Bool} (h : Flips m.toPlaneOrAxis x z s) :
    (pauliXZ x z).conjTranspose * observable m * pauliXZ x z = sgn s • observable m := by
  cases m with
  | bloch m =>
    obtain ⟨θ, p⟩ := m
    cases p <;> simp only [Flips, Measurement.toPlaneOrAxis] at h <;> obtain ⟨rfl, rfl⟩ := h
    · cases z <;>
      · simp only [pauliXZ, powB, Graphix.observable, planeObservable, Plane.cos, Plane.sin, Ops.fromAxis, Ops.X, Ops.Y, Ops.Z, if_true,
          Bool.false_eq_true, if_false, mat2_one, mat2_conjTranspose, mat2_smul, mat2_add, mat2_mul, sgn_true, sgn_false]
        apply mat2_ext <;> simp
    · cases x <;>
      · simp only [pauliXZ, powB, Graphix.observable, planeObservable, Plane.cos, Plane.sin, Ops.fromAxis, Ops.X, Ops.Y, Ops.Z, if_true,
          Bool.false_eq_true, if_false, mat2_one, mat2_conjTranspose, mat2_smul, mat2_add, mat2_mul, sgn_true, sgn_false]
        apply mat2_ext <;> simp
    · cases z <;>
      · simp only [pauliXZ, powB, Graphix.observable, planeObservable, Plane.cos, Plane.sin, Ops.fromAxis, Ops.X, Ops.Y, Ops.Z, if_true,
          Bool.false_eq_true, if_false, mat2_one, mat2_conjTranspose, mat2_smul, mat2_add, mat2_mul, sgn_true, sgn_false]
        apply mat2_ext <;> simp
  | pauli m =>
    obtain ⟨a, sg⟩ := m
    cases a <;> simp only [Flips, Measurement.toPlaneOrAxis] at h <;> subst h <;> cases x <;> cases z <;>
      · simp only [pauliXZ, powB, Graphix.observable, Ops.fromAxis, Ops.X, Ops.Y, Ops.Z, if_true,
          Bool.false_eq_true, if_false, mat2_one, mat2_conjTranspose, mat2_smul, mat2_mul, sgn_true, sgn_false, Bool.xor]
        apply mat2_ext <;> simp

theorem pauliXZ_unitary (x z : Bool) : (pauliXZ x z).conjTranspose * pauliXZ x z = 1 := by
  unfold pauliXZ
  cases x <;> cases z <;>
    · simp only [powB, Ops.X, Ops.Z, if_true, Bool.false_eq_true, if_false, mat2_one, mat2_conjTranspose, mat2_mul]
      apply mat2_ext <;> simp

theorem Flips.bra {m : Measurement} {x z s : Bool} (h : Flips m.toPlaneOrAxis x z s) (o : Bool) :
    MatPhaseEq (Graphix.bra (measVec m o) * pauliXZ x z) (Graphix.bra (measVec m (Bool.xor o s))) := by
  apply bra_conj
  rw [measureOperator_eq, measureOperator_eq]
  simp only [Matrix.mul_smul, Matrix.smul_mul, Matrix.mul_add, Matrix.add_mul, Matrix.mul_one, h.observable,
    pauliXZ_unitary, smul_smul]
  cases s <;> cases o <;> simp

/-- Node and operator of a command that acts on one node. -/
noncomputable def Command.localOp? (r : ℕ → Bool) : Command → Option (ℕ × Mat2)
  | .M n m s t => some (n, bra (measVec m (r n)) * (powB Ops.X (parity r s) * powB Ops.Z (parity r t)))
  | .C n c => some (n, c.matrix)
  | .X n d => some (n, powB Ops.X (parity r d))
  | .Z n d => some (n, powB Ops.Z (parity r d))
  | _ => none

theorem Command.localOp?_sem {r : ℕ → Bool} {c : Command} {n : ℕ} {U : Mat2} (h : c.localOp? r = some (n, U)) (ψ : QState) :
    c.sem r ψ = op1 U n ψ := by
  cases c <;> simp only [Command.localOp?, Option.some.injEq, Prod.mk.injEq, reduceCtorEq] at h
  all_goals obtain ⟨rfl, rfl⟩ := h
  all_goals simp [Command.sem, projOut_eq_op1, op1_mul]

/-- What the commands do to node `w`. -/
noncomputable def accum (r : ℕ → Bool) (cmds : List Command) (w : ℕ) (A : Mat2) : Mat2 :=
  cmds.foldl (fun A c => match c.localOp? r with
    | some (n, U) => if n = w then U * A else A
    | none => A) A

@[simp] theorem accum_nil (r w A) : accum r [] w A = A := rfl

theorem accum_cons {r : ℕ → Bool} {c : Command} {n : ℕ} {U : Mat2} (h : c.localOp? r = some (n, U)) (cmds w A) :
    accum r (c :: cmds) w A = accum r cmds w (if n = w then U * A else A) := by
  simp [accum, h]

theorem accum_append (r cmds cmds' w A) : accum r (cmds ++ cmds') w A = accum r cmds' w (accum r cmds w A) := by
  simp [accum, List.foldl_append]

theorem semCmds_locOps {r : ℕ → Bool} {l : List ℕ} (hl : l.Nodup) (cmds : List Command)
    (h : ∀ c ∈ cmds, ∃ n U, c.localOp? r = some (n, U) ∧ n ∈ l) (F : ℕ → Mat2) (ψ : QState) :
    semCmds r cmds (locOps F l ψ) = locOps (fun w => accum r cmds w (F w)) l ψ := by
  induction cmds generalizing F with
  | nil => rfl
  | cons c cmds ih =>
    obtain ⟨n, U, hc, hn⟩ := h c (by simp)
    rw [semCmds_cons, Command.localOp?_sem hc, op1_locOps F U hl hn, ih fun c' hc' => h c' (by simp [hc'])]
    apply locOps_congr
    intro w _
    rw [accum_cons hc]
    by_cases hw : n = w
    · subst hw; simp
    · rw [if_neg hw, update_of_ne (Ne.symm hw)]

/-- Measurement of `u` followed by the corrections it triggers. -/
def blockOf (meas : ℕ → Measurement) (xl zl : ℕ → List ℕ) (u : ℕ) : List Command :=
  Command.M u (meas u) ∅ ∅ :: ((zl u).map (fun k => Command.Z k {u}) ++ (xl u).map (fun k => Command.X k {u}))

theorem accum_zs {r : ℕ → Bool} {u w : ℕ} {l : List ℕ} (hl : l.Nodup) (A : Mat2) :
    accum r (l.map fun k => Command.Z k {u}) w A = powB Ops.Z (r u && decide (w ∈ l)) * A := by
  induction l generalizing A with
  | nil => simp [powB]
  | cons a l ih =>
    rw [List.nodup_cons] at hl
    rw [List.map_cons, accum_cons (n := a) (U := powB Ops.Z (parity r {u})) rfl, ih hl.2, parity_singleton]
    by_cases h : a = w
    · subst h; rw [if_pos rfl]; simp [hl.1, powB]
    · rw [if_neg h]; simp [Ne.symm h]

theorem accum_xs {r : ℕ → Bool} {u w : ℕ} {l : List ℕ} (hl : l.Nodup) (A : Mat2) :
    accum r (l.map fun k => Command.X k {u}) w A = powB Ops.X (r u && decide (w ∈ l)) * A := by
  induction l generalizing A with
  | nil => simp [powB]
  | cons a l ih =>
    rw [List.nodup_cons] at hl
    rw [List.map_cons, accum_cons (n := a) (U := powB Ops.X (parity r {u})) rfl, ih hl.2, parity_singleton]
    by_cases h : a = w
    · subst h; rw [if_pos rfl]; simp [hl.1, powB]
    · rw [if_neg h]; simp [Ne.symm h]

theorem accum_block {r : ℕ → Bool} {meas : ℕ → Measurement} {xl zl : ℕ → List ℕ} {u w : ℕ}
    (hx : (xl u).Nodup) (hz : (zl u).Nodup) (A : Mat2) :
    accum r (blockOf meas xl zl u) w A =
      pauliXZ (r u && decide (w ∈ xl u)) (r u && decide (w ∈ zl u)) * (if u = w then bra (measVec (meas u) (r u)) * A else A) := by
  unfold blockOf
  rw [accum_cons (n := u) (U := bra (measVec (meas u) (r u)) * (powB Ops.X (parity r ∅) * powB Ops.Z (parity r ∅))) rfl,
    accum_append, accum_zs hz, accum_xs hx, pauliXZ, ← Matrix.mul_assoc]
  have e : bra (measVec (meas u) (r u)) * (powB Ops.X (parity r ∅) * powB Ops.Z (parity r ∅)) =
    bra (measVec (meas u) (r u)) := by simp [parity_empty, powB]
  rw [e]

section

variable {r : ℕ → Bool} {meas : ℕ → Measurement} {xl zl : ℕ → List ℕ}

theorem accum_before {w : ℕ} (us : List ℕ) (hw : w ∉ us) (hx : ∀ u ∈ us, (xl u).Nodup) (hz : ∀ u ∈ us, (zl u).Nodup)
    (a b : Bool) (A : Mat2) (hA : MatPhaseEq A (pauliXZ a b)) :
    MatPhaseEq (accum r (us.flatMap (blockOf meas xl zl)) w A)
      (pauliXZ (Bool.xor a (xorl us fun u => r u && decide (w ∈ xl u)))
        (Bool.xor b (xorl us fun u => r u && decide (w ∈ zl u)))) := by
  induction us generalizing a b A with
  | nil => simpa using hA
  | cons u us ih =>
    have hne : u ≠ w := by rintro rfl; simp at hw
    rw [List.flatMap_cons, accum_append, accum_block (hx u (by simp)) (hz u (by simp)), if_neg hne]
    have h1 : MatPhaseEq (pauliXZ (r u && decide (w ∈ xl u)) (r u && decide (w ∈ zl u)) * A)
        (pauliXZ (Bool.xor (r u && decide (w ∈ xl u)) a) (Bool.xor (r u && decide (w ∈ zl u)) b)) :=
      ((MatPhaseEq.refl _).mul hA).trans (pauliXZ_mul _ _ _ _)
    have h2 := ih (fun h => hw (by simp [h])) (fun v hv => hx v (by simp [hv])) (fun v hv => hz v (by simp [hv])) _ _ _ h1
    rw [xorl_cons, xorl_cons]
    convert h2 using 2
    · cases a <;> cases (r u && decide (w ∈ xl u)) <;> cases (xorl us fun u => r u && decide (w ∈ xl u)) <;> rfl
    · cases b <;> cases (r u && decide (w ∈ zl u)) <;> cases (xorl us fun u => r u && decide (w ∈ zl u)) <;> rfl

theorem accum_after {w : ℕ} (us : List ℕ) (hw : w ∉ us) (hx : ∀ u ∈ us, (xl u).Nodup) (hz : ∀ u ∈ us, (zl u).Nodup)
    (hn : ∀ u ∈ us, w ∉ xl u ∧ w ∉ zl u) (A : Mat2) :
    accum r (us.flatMap (blockOf meas xl zl)) w A = A := by
  induction us generalizing A with
  | nil => rfl
  | cons u us ih =>
    have hne : u ≠ w := by rintro rfl; simp at hw
    rw [List.flatMap_cons, accum_append, accum_block (hx u (by simp)) (hz u (by simp)), if_neg hne,
      ih (fun h => hw (by simp [h])) (fun v hv => hx v (by simp [hv])) (fun v hv => hz v (by simp [hv]))
        (fun v hv => hn v (by simp [hv]))]
    simp [(hn u (by simp)).1, (hn u (by simp)).2, pauliXZ_false]

end

/-- The state after the preparations. -/
noncomputable def prepList (ns : List ℕ) (ψ : QState) : QState := ns.foldl (fun ψ n => prep n PlanarState.plus.vec ψ) ψ

theorem planar_plus_vec (b : Bool) : PlanarState.plus.vec b = PlanarState.plus.vec false := by
  cases b <;> simp [PlanarState.plus, PlanarState.vec, planarState]

theorem prepList_apply (ns : List ℕ) (ψ : QState) (b : Basis) :
    prepList ns ψ b = (PlanarState.plus.vec false) ^ ns.length * ψ b := by
  unfold prepList
  induction ns generalizing ψ with
  | nil => simp
  | cons n ns ih =>
    rw [List.foldl_cons, ih, List.length_cons, pow_succ]
    unfold prep
    rw [planar_plus_vec (b n)]; ring

theorem semCmds_prepList (r : ℕ → Bool) (ns : List ℕ) (ψ : QState) :
    semCmds r (ns.map (Command.N · PlanarState.plus)) ψ = prepList ns ψ := by
  unfold prepList
  induction ns generalizing ψ with
  | nil => rfl
  | cons n ns ih => rw [List.map_cons, semCmds_cons, ih]; rfl

theorem semCmds_edgeList (r : ℕ → Bool) (es : List (ℕ × ℕ)) (ψ : QState) :
    semCmds r (es.map fun e => Command.E e.1 e.2) ψ = czList es ψ := by
  unfold czList
  induction es generalizing ψ with
  | nil => rfl
  | cons n ns ih => rw [List.map_cons, semCmds_cons, ih]; rfl

/-- The commands of the pattern that `to_pattern` builds. -/
noncomputable def patternCmds (ns : List ℕ) (og : OpenGraph) (meas : ℕ → Measurement) (xl zl : ℕ → List ℕ) (order : List ℕ) :
    List Command :=
  ns.map (Command.N · PlanarState.plus) ++ (og.edges.map (fun e => Command.E e.1 e.2) ++
    (order.flatMap (blockOf meas xl zl) ++ og.cliffords.map (fun kv => Command.C kv.1 kv.2)))

/-- If the corrections of every measurement complete a product of stabilizers to an operator that flips its outcome and
no other one, the pattern is deterministic. -/
theorem determinism {og : OpenGraph} (hv : og.Valid) (hloop : ∀ e ∈ og.edges, e.1 ≠ e.2) {order ns : List ℕ}
    (hnd : order.Nodup) (hset : ∀ u, u ∈ order ↔ u ∈ og.nodes ∧ u ∉ og.outputs) {meas : ℕ → Measurement}
    {xl zl : ℕ → List ℕ} {p : ℕ → Finset ℕ} (hx : ∀ u ∈ order, (xl u).Nodup) (hz : ∀ u ∈ order, (zl u).Nodup)
    (hxn : ∀ u ∈ order, ∀ w ∈ xl u, w ∈ og.nodes) (hzn : ∀ u ∈ order, ∀ w ∈ zl u, w ∈ og.nodes)
    (hlater : ∀ pre u post, order = pre ++ u :: post → ∀ w, w ∈ xl u ∨ w ∈ zl u → w ∉ pre ∧ w ≠ u)
    (hp : ∀ u ∈ order, ∀ w ∈ p u, w ∈ og.nodes ∧ w ∉ og.inputs)
    (hflip : ∀ u ∈ order, ∀ w ∈ order, Flips (meas w).toPlaneOrAxis (Bool.xor (decide (w ∈ p u)) (decide (w ∈ xl u)))
      (Bool.xor (decide (w ∈ og.oddSet (p u))) (decide (w ∈ zl u))) (decide (u = w)))
    (hout : ∀ u ∈ order, ∀ w ∈ og.outputs, (w ∈ p u ↔ w ∈ xl u) ∧ (w ∈ og.oddSet (p u) ↔ w ∈ zl u))
    (r : ℕ → Bool) :
    OpPhaseEqOn (Absent (og.nodes \ og.inputs.toFinset)) (semCmds r (patternCmds ns og meas xl zl order)) fun ψ =>
      (locOps (fun w => if w ∈ order then bra (measVec (meas w) false) else
        accum r (og.cliffords.map (fun kv => Command.C kv.1 kv.2)) w 1) (og.nodes.sort (· ≤ ·)) (czList og.edges (prepList ns ψ))) := by
  set l := og.nodes.sort (· ≤ ·) with hl
  have hlnd : l.Nodup := Finset.sort_nodup _ _
  have hlm : ∀ n, n ∈ l ↔ n ∈ og.nodes := fun n => Finset.mem_sort _
  obtain ⟨hm, hi, ho, -, -, hcl⟩ := og.postInit_ok hv.post
  -- the pattern as a product of local operators
  have h1 : ∀ ψ, semCmds r (patternCmds ns og meas xl zl order) ψ =
      locOps (fun w => accum r (order.flatMap (blockOf meas xl zl) ++
        og.cliffords.map (fun kv => Command.C kv.1 kv.2)) w 1) l (czList og.edges (prepList ns ψ)) := by
    intro ψ
    unfold patternCmds
    rw [semCmds_append, semCmds_append, semCmds_prepList, semCmds_edgeList]
    conv_lhs => rw [← locOps_one l (czList og.edges (prepList ns ψ))]
    rw [semCmds_locOps hlnd]
    intro c hc
    rcases List.mem_append.1 hc with hc | hc
    · obtain ⟨u, hu, hc⟩ := List.mem_flatMap.1 hc
      unfold blockOf at hc
      rcases List.mem_cons.1 hc with rfl | hc
      · exact ⟨u, _, rfl, (hlm u).2 ((hset u).1 hu).1⟩
      · rcases List.mem_append.1 hc with hc | hc
        · obtain ⟨k, hk, rfl⟩ := List.mem_map.1 hc
          exact ⟨k, _, rfl, (hlm k).2 (hzn u hu k hk)⟩
        · obtain ⟨k, hk, rfl⟩ := List.mem_map.1 hc
          exact ⟨k, _, rfl, (hlm k).2 (hxn u hu k hk)⟩
    · obtain ⟨kv, hkv, rfl⟩ := List.mem_map.1 hc
      refine ⟨kv.1, _, rfl, (hlm _).2 (ho (hcl ?_))⟩
      rw [List.mem_toFinset]; exact List.mem_map.2 ⟨kv, hkv, rfl⟩
  -- the product of stabilizers
  set α : ℕ → Bool := fun w => xorl order fun u => r u && decide (w ∈ p u) with hα
  have hodd : ∀ w, oddp og.edges α w = xorl order fun u => r u && decide (w ∈ og.oddSet (p u)) := by
    intro w
    rw [hα, oddp_xorl]
    apply xorl_congr
    intro u _
    classical
    rw [oddp_eq og hv.edge_once hloop]
    simp only [OpenGraph.mem_oddSet]
  obtain ⟨c, hc, hstab⟩ := stabilizer (es := og.edges) hlnd (fun e he => by
      have := hv.edge_mem e.1 e.2 he
      exact ⟨(hlm _).2 this.1, (hlm _).2 this.2⟩) α
  have hstab : ∀ ψ, Absent (og.nodes \ og.inputs.toFinset) ψ →
      locOps (fun n => pauliXZ (α n) (oddp og.edges α n)) l (czList og.edges (prepList ns ψ)) =
        c • czList og.edges (prepList ns ψ) := by
    intro ψ hψ
    apply hstab
    · intro b
      rw [prepList_apply, prepList_apply]
      congr 1
      apply hψ
      intro n hn
      unfold flipOn
      by_cases h : n ∈ l
      · rw [if_pos h]
        have hn : n ∈ og.inputs := by
          by_contra hni
          exact hn (by simp [(hlm n).1 h, hni])
        have : α n = false := by
          rw [hα, ← xorl_false order]
          apply xorl_congr
          intro u hu
          have : n ∉ p u := fun hnp => (hp u hu n hnp).2 hn
          simp [this]
        rw [this]; simp
      · rw [if_neg h]
  -- node by node
  have hloc : ∀ w ∈ l, MatPhaseEq (accum r (order.flatMap (blockOf meas xl zl) ++
        og.cliffords.map (fun kv => Command.C kv.1 kv.2)) w 1 * pauliXZ (α w) (oddp og.edges α w))
      (if w ∈ order then bra (measVec (meas w) false) else
        accum r (og.cliffords.map (fun kv => Command.C kv.1 kv.2)) w 1) := by
    intro w hw
    rw [hodd, hα, accum_append]
    have hxor : ∀ (us : List ℕ) (f g : ℕ → Bool), Bool.xor (xorl us fun u => r u && f u) (xorl us fun u => r u && g u) =
        xorl us fun u => r u && Bool.xor (g u) (f u) := by
      intro us f g
      rw [← xorl_xor]; apply xorl_congr; intro u _
      cases r u <;> cases f u <;> cases g u <;> rfl
    by_cases hwo : w ∈ order
    · rw [if_pos hwo]
      obtain ⟨pre, post, hsplit⟩ := List.append_of_mem hwo
      have hnd' := hnd
      rw [hsplit, List.nodup_append, List.nodup_cons] at hnd'
      have hwpre : w ∉ pre := fun h => hnd'.2.2 w h w (by simp) rfl
      have hwpost : w ∉ post := hnd'.2.1.1
      have hself := hlater pre w post hsplit
      have hpost : ∀ u ∈ post, w ∉ xl u ∧ w ∉ zl u := by
        intro u hu
        obtain ⟨q1, q2, hq⟩ := List.append_of_mem hu
        have := hlater (pre ++ w :: q1) u q2 (by rw [hsplit, hq]; simp)
        constructor
        · intro h; exact (this w (Or.inl h)).1 (by simp)
        · intro h; exact (this w (Or.inr h)).1 (by simp)
      have hwself : w ∉ xl w ∧ w ∉ zl w := ⟨fun h => (hself w (Or.inl h)).2 rfl, fun h => (hself w (Or.inr h)).2 rfl⟩
      have hmemo : ∀ u, u ∈ pre ∨ u = w ∨ u ∈ post → u ∈ order := by
        intro u hu; rw [hsplit]; simp only [List.mem_append, List.mem_cons]; tauto
      -- no Clifford on a measured node
      have hcliff : ∀ A, accum r (og.cliffords.map (fun kv => Command.C kv.1 kv.2)) w A = A := by
        have hk : ∀ kv ∈ og.cliffords, kv.1 ≠ w := by
          rintro kv hkv rfl
          have : kv.1 ∈ og.outputs := by
            have := hcl (x := kv.1) (by rw [List.mem_toFinset]; exact List.mem_map.2 ⟨kv, hkv, rfl⟩)
            simpa using this
          exact ((hset _).1 hwo).2 this
        generalize og.cliffords = cs at hk
        induction cs with
        | nil => intro A; rfl
        | cons kv cs ih =>
          intro A
          rw [List.map_cons, accum_cons (n := kv.1) (U := kv.2.matrix) rfl, if_neg (hk kv (by simp))]
          exact ih (fun kv' h => hk kv' (by simp [h])) A
      have hacc : MatPhaseEq (accum r (order.flatMap (blockOf meas xl zl)) w 1)
          (bra (measVec (meas w) (r w)) * pauliXZ (xorl order fun u => r u && decide (w ∈ xl u))
            (xorl order fun u => r u && decide (w ∈ zl u))) := by
        have hb := accum_before (r := r) (meas := meas) (xl := xl) (zl := zl) pre hwpre
          (fun u hu => hx u (hmemo u (Or.inl hu))) (fun u hu => hz u (hmemo u (Or.inl hu))) false false 1
          (by rw [pauliXZ_false]; exact MatPhaseEq.refl _)
        have e : ∀ (f : ℕ → List ℕ), w ∉ f w → (∀ u ∈ post, w ∉ f u) →
            (xorl order fun u => r u && decide (w ∈ f u)) = xorl pre fun u => r u && decide (w ∈ f u) := by
          intro f hf hpf
          rw [hsplit, xorl_append, xorl_cons, xorl_congr (l := post) (g := fun _ => false), xorl_false]
          · simp [hf]
          · intro u hu; simp [hpf u hu]
        rw [e xl hwself.1 fun u hu => (hpost u hu).1, e zl hwself.2 fun u hu => (hpost u hu).2]
        rw [hsplit, List.flatMap_append, List.flatMap_cons, accum_append, accum_append,
          accum_block (hx w hwo) (hz w hwo), if_pos rfl,
          accum_after post hwpost (fun u hu => hx u (hmemo u (Or.inr (Or.inr hu))))
            (fun u hu => hz u (hmemo u (Or.inr (Or.inr hu)))) hpost]
        simp only [hwself.1, hwself.2, decide_false, Bool.and_false, pauliXZ_false, Matrix.one_mul]
        refine (MatPhaseEq.refl _).mul ?_
        simpa using hb
      rw [hcliff]
      refine (hacc.mul (MatPhaseEq.refl _)).trans ?_
      rw [Matrix.mul_assoc]
      refine ((MatPhaseEq.refl _).mul (pauliXZ_mul _ _ _ _)).trans ?_
      rw [hxor, hxor]
      have hfl : ∀ us : List ℕ, (∀ u ∈ us, u ∈ order) → Flips (meas w).toPlaneOrAxis
          (xorl us fun u => r u && Bool.xor (decide (w ∈ p u)) (decide (w ∈ xl u)))
          (xorl us fun u => r u && Bool.xor (decide (w ∈ og.oddSet (p u))) (decide (w ∈ zl u)))
          (xorl us fun u => r u && decide (u = w)) := by
        intro us
        induction us with
        | nil => intro _; exact Flips.zero _
        | cons u us ih =>
          intro hus
          simp only [xorl_cons]
          refine Flips.add ?_ (ih fun v hv => hus v (by simp [hv]))
          cases r u
          · simpa using Flips.zero _
          · simpa using hflip u (hus u (by simp)) w hwo
      have hone : (xorl order fun u => r u && decide (u = w)) = r w := by
        have := xorl_single hnd hwo r
        rw [← this]
        apply xorl_congr
        intro u _
        by_cases h : u = w
        · subst h; simp
        · simp [h, Ne.symm h]
      have hF := (hfl order fun _ h => h).bra (r w)
      rw [hone, Bool.xor_self] at hF
      exact hF
    · rw [if_neg hwo]
      have hwout : w ∈ og.outputs := by
        by_contra h; exact hwo ((hset w).2 ⟨(hlm w).1 hw, h⟩)
      have hb := accum_before (r := r) (meas := meas) (xl := xl) (zl := zl) order hwo hx hz false false 1
          (by rw [pauliXZ_false]; exact MatPhaseEq.refl _)
      -- the Cliffords act by left multiplication
      have hlin : ∀ (cs : List (ℕ × Clifford)) A, accum r (cs.map fun kv => Command.C kv.1 kv.2) w A =
          accum r (cs.map fun kv => Command.C kv.1 kv.2) w 1 * A := by
        intro cs
        induction cs with
        | nil => intro A; simp
        | cons kv cs ih =>
          intro A
          rw [List.map_cons, accum_cons (n := kv.1) (U := kv.2.matrix) rfl, accum_cons (n := kv.1) (U := kv.2.matrix) rfl,
            ih, ih (if kv.1 = w then kv.2.matrix * 1 else 1), Matrix.mul_assoc]
          congr 1
          split <;> simp
      rw [hlin, Matrix.mul_assoc]
      have h2 : MatPhaseEq (accum r (order.flatMap (blockOf meas xl zl)) w 1 *
          pauliXZ (xorl order fun u => r u && decide (w ∈ p u)) (xorl order fun u => r u && decide (w ∈ og.oddSet (p u)))) 1 := by
        refine (hb.mul (MatPhaseEq.refl _)).trans ((pauliXZ_mul _ _ _ _).trans ?_)
        rw [Bool.false_xor, Bool.false_xor, hxor, hxor]
        have z1 : (xorl order fun u => r u && Bool.xor (decide (w ∈ p u)) (decide (w ∈ xl u))) = false := by
          rw [← xorl_false order]; apply xorl_congr; intro u hu
          simp [(hout u hu w hwout).1]
        have z2 : (xorl order fun u => r u && Bool.xor (decide (w ∈ og.oddSet (p u))) (decide (w ∈ zl u))) = false := by
          rw [← xorl_false order]; apply xorl_congr; intro u hu
          simp [(hout u hu w hwout).2]
        rw [z1, z2, pauliXZ_false]; exact MatPhaseEq.refl _
      have h3 := (MatPhaseEq.refl (accum r (og.cliffords.map fun kv => Command.C kv.1 kv.2) w 1)).mul h2
      rwa [Matrix.mul_one] at h3
  obtain ⟨d, hd, h4⟩ := locOps_phase hloc
  have hc0 : c ≠ 0 := by rintro rfl; simp at hc
  refine ⟨c⁻¹ * d, by rw [norm_mul, norm_inv, hc, hd]; simp, fun ψ hψ => ?_⟩
  have h5 := locOps_mul (fun w => accum r (order.flatMap (blockOf meas xl zl) ++
        og.cliffords.map (fun kv => Command.C kv.1 kv.2)) w 1) (fun n => pauliXZ (α n) (oddp og.edges α n)) hlnd
        (czList og.edges (prepList ns ψ))
  rw [hstab ψ hψ, locOps_homog, h4] at h5
  rw [h1, ← smul_smul, ← h5, smul_smul, inv_mul_cancel₀ hc0, one_smul]

theorem accum_cliff_indep (r r' : ℕ → Bool) (cs : List (ℕ × Clifford)) (w : ℕ) (A : Mat2) :
    accum r (cs.map fun kv => Command.C kv.1 kv.2) w A = accum r' (cs.map fun kv => Command.C kv.1 kv.2) w A := by
  induction cs generalizing A with
  | nil => rfl
  | cons kv cs ih =>
    rw [List.map_cons, accum_cons (n := kv.1) (U := kv.2.matrix) rfl, accum_cons (n := kv.1) (U := kv.2.matrix) rfl, ih]

theorem accum_cliff_ne {r : ℕ → Bool} {cs : List (ℕ × Clifford)} {w : ℕ} (hk : ∀ kv ∈ cs, kv.1 ≠ w) (A : Mat2) :
    accum r (cs.map fun kv => Command.C kv.1 kv.2) w A = A := by
  induction cs generalizing A with
  | nil => rfl
  | cons kv cs ih =>
    rw [List.map_cons, accum_cons (n := kv.1) (U := kv.2.matrix) rfl, if_neg (hk kv (by simp))]
    exact ih (fun kv' h => hk kv' (by simp [h])) A

theorem accum_ms {r : ℕ → Bool} {meas : ℕ → Measurement} {w : ℕ} {us : List ℕ} (hnd : us.Nodup) (A : Mat2) :
    accum r (us.map fun u => Command.M u (meas u) ∅ ∅) w A = if w ∈ us then bra (measVec (meas w) (r w)) * A else A := by
  induction us generalizing A with
  | nil => rfl
  | cons u us ih =>
    rw [List.nodup_cons] at hnd
    rw [List.map_cons,
      accum_cons (n := u) (U := bra (measVec (meas u) (r u)) * (powB Ops.X (parity r ∅) * powB Ops.Z (parity r ∅))) rfl, ih hnd.2]
    have e : bra (measVec (meas u) (r u)) * (powB Ops.X (parity r ∅) * powB Ops.Z (parity r ∅)) =
      bra (measVec (meas u) (r u)) := by simp [parity_empty, powB]
    rw [e]
    by_cases h : u = w
    · subst h; simp [hnd.1]
    · simp [h, Ne.symm h]

theorem prepList_congr {ns ns' : List ℕ} (h : ns.length = ns'.length) (ψ : QState) : prepList ns ψ = prepList ns' ψ := by
  funext b; rw [prepList_apply, prepList_apply, h]

/-- The map of the open graph, as a product of local operators. -/
theorem linMap_eq {og : OpenGraph} (hv : og.Valid) {order ns : List ℕ}
    (hset : ∀ u, u ∈ order ↔ u ∈ og.nodes ∧ u ∉ og.outputs) (hns : ns.Nodup)
    (hnm : ∀ n, n ∈ ns ↔ n ∈ og.nodes ∧ n ∉ og.inputs) (ψ : QState) :
    og.linMap ψ = locOps (fun w => if w ∈ order then bra (measVec (og.measOf w) false) else
        accum (fun _ => false) (og.cliffords.map (fun kv => Command.C kv.1 kv.2)) w 1) (og.nodes.sort (· ≤ ·))
        (czList og.edges (prepList ns ψ)) := by
  obtain ⟨hm, hi, ho, -, -, hcl⟩ := og.postInit_ok hv.post
  unfold OpenGraph.linMap OpenGraph.bareCmds
  rw [semCmds_append, semCmds_append, semCmds_prepList, semCmds_edgeList]
  have hlen : ((og.nodes \ og.inputs.toFinset).sort (· ≤ ·)).length = ns.length := by
    rw [Finset.length_sort, ← List.toFinset_card_of_nodup hns]
    congr 1
    ext n; simp [hnm]
  rw [prepList_congr hlen]
  conv_lhs => rw [← locOps_one (og.nodes.sort (· ≤ ·)) (czList og.edges (prepList ns ψ))]
  rw [semCmds_locOps (Finset.sort_nodup _ _)]
  · apply locOps_congr
    intro w hw
    rw [accum_append, accum_ms (Finset.sort_nodup _ _)]
    have hw' : w ∈ og.nodes := by simpa using hw
    by_cases h : w ∈ order
    · have h2 := (hset w).1 h
      rw [if_pos (by simpa using h2), if_pos h, Matrix.mul_one]
      apply accum_cliff_ne
      rintro kv hkv rfl
      have : kv.1 ∈ og.outputs := by
        have := hcl (x := kv.1) (by rw [List.mem_toFinset]; exact List.mem_map.2 ⟨kv, hkv, rfl⟩)
        simpa using this
      exact h2.2 this
    · have h2 : w ∈ og.outputs := by
        by_contra hc; exact h ((hset w).2 ⟨hw', hc⟩)
      rw [if_neg (by simp [h2]), if_neg h]
  · intro c hc
    rcases List.mem_append.1 hc with hc | hc
    · obtain ⟨u, hu, rfl⟩ := List.mem_map.1 hc
      refine ⟨u, _, rfl, ?_⟩
      simp only [Finset.mem_sort, Finset.mem_sdiff] at hu ⊢
      exact hu.1
    · obtain ⟨kv, hkv, rfl⟩ := List.mem_map.1 hc
      refine ⟨kv.1, _, rfl, (Finset.mem_sort _).2 (ho (hcl ?_))⟩
      rw [List.mem_toFinset]; exact List.mem_map.2 ⟨kv, hkv, rfl⟩

end Graphix
