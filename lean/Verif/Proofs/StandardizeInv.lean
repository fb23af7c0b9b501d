import Verif.Proofs.Standardize
import Mathlib.Algebra.BigOperators.Group.Finset.Basic

/-! The invariant of the standardization loop. -/

namespace Graphix

open scoped symmDiff

/-! ### Applying CZ along a set of edges -/

/-- The sign of `CZ` on an edge. -/
noncomputable def czSign (b : Basis) (e : Sym2 ℕ) : ℂ :=
  Sym2.lift ⟨fun u v => if b u && b v then -1 else 1, by intro u v; simp [Bool.and_comm]⟩ e

@[simp] theorem czSign_mk (b : Basis) (u v : ℕ) :
    czSign b s(u, v) = if b u && b v then -1 else 1 := rfl

theorem czSign_sq (b : Basis) (e : Sym2 ℕ) : czSign b e * czSign b e = 1 := by
  induction e with | _ u v => rw [czSign_mk]; split <;> norm_num

/-- CZ along every edge of a set. -/
noncomputable def czSet (E : Finset (Sym2 ℕ)) (ψ : QState) : QState :=
  fun b => (∏ e ∈ E, czSign b e) * ψ b

theorem czSet_homog (E : Finset (Sym2 ℕ)) : Homog (czSet E) := fun c ψ => by
  funext b; simp only [czSet, Pi.smul_apply, smul_eq_mul]; ring

theorem czSet_empty (ψ : QState) : czSet ∅ ψ = ψ := by funext b; simp [czSet]

theorem cz_eq_sign (u v : ℕ) (ψ : QState) (b : Basis) : cz u v ψ b = czSign b s(u, v) * ψ b := rfl

theorem czSet_toggle (E : Finset (Sym2 ℕ)) (u v : ℕ) (ψ : QState) :
    czSet (E ∆ {s(u, v)}) ψ = cz u v (czSet E ψ) := by
  funext b
  rw [cz_eq_sign]
  unfold czSet
  by_cases h : s(u, v) ∈ E
  · have e : E ∆ {s(u, v)} = E.erase s(u, v) := by
      ext x; simp only [Finset.mem_symmDiff, Finset.mem_singleton, Finset.mem_erase]
      constructor
      · rintro (⟨h1, h2⟩ | ⟨rfl, h2⟩)
        · exact ⟨h2, h1⟩
        · exact absurd h h2
      · rintro ⟨h1, h2⟩; exact Or.inl ⟨h2, h1⟩
    rw [e, ← Finset.mul_prod_erase E _ h, ← mul_assoc, ← mul_assoc, czSign_sq, one_mul]
  · have e : E ∆ {s(u, v)} = insert s(u, v) E := by
      ext x; simp only [Finset.mem_symmDiff, Finset.mem_singleton, Finset.mem_insert]
      constructor
      · rintro (⟨h1, h2⟩ | ⟨rfl, h2⟩)
        · exact Or.inr h1
        · exact Or.inl rfl
      · rintro (rfl | h1)
        · exact Or.inr ⟨rfl, h⟩
        · exact Or.inl ⟨h1, fun h' => h (h' ▸ h1)⟩
    rw [e, Finset.prod_insert h, mul_assoc]

theorem czSet_prep (E : Finset (Sym2 ℕ)) (n : ℕ) (w : Bool → ℂ) (ψ : QState) :
    prep n w (czSet E ψ) = czSet E (prep n w ψ) := by
  funext b; simp only [prep, czSet]; ring

/-- The list of CZ commands over an enumeration of the edges applies exactly `czSet`. -/
theorem semCmds_edges (r : ℕ → Bool) (edges : List (ℕ × ℕ)) (ψ : QState)
    (h : (edges.map (fun e => s(e.1, e.2))).Nodup) :
    semCmds r (edges.map (fun e => Command.E e.1 e.2)) ψ =
      czSet (edges.map (fun e => s(e.1, e.2))).toFinset ψ := by
  induction edges generalizing ψ with
  | nil => simp [czSet_empty]
  | cons e l ih =>
    simp only [List.map_cons, List.nodup_cons] at h
    simp only [List.map_cons, semCmds_cons, Command.sem]
    rw [ih _ h.2]
    funext b
    simp only [czSet, List.toFinset_cons]
    rw [Finset.prod_insert (by simpa using h.1), cz_eq_sign]; ring

/-! ### Preparations and measurements -/

/-- The command of an `n_list` entry. -/
def nCmd (n : ℕ × PlanarState) : Command := .N n.1 n.2

/-- A list of measurements commutes with operators that commute with each of them. -/
theorem semCmds_meas_comm (r : ℕ → Bool) (l : List MCmd) (F : QState → QState)
    (h : ∀ m ∈ l, ∀ (U : Mat2) ψ, F (op1 U m.node ψ) = op1 U m.node (F ψ)) (ψ : QState) :
    F (semCmds r (l.map MCmd.toCmd) ψ) = semCmds r (l.map MCmd.toCmd) (F ψ) := by
  induction l generalizing ψ with
  | nil => rfl
  | cons m l ih =>
    simp only [List.map_cons, semCmds_cons]
    rw [ih (fun m hm => h m (by simp [hm]))]
    congr 1
    simp only [MCmd.toCmd, Command.sem, projOut_eq_op1]
    rw [h m (by simp), h m (by simp), h m (by simp)]

/-- The meaning of the accumulators. -/
noncomputable def StdBody.sem (b : StdBody) (r : ℕ → Bool) (ψ : QState) : QState :=
  corrOp r b.cDict b.xDict b.zDict
    (semCmds r (b.mList.map MCmd.toCmd) (czSet b.eSet (semCmds r (b.nList.map nCmd) ψ)))

/-- Every measurement depends only on earlier ones. -/
def MOrdered (l : List MCmd) : Prop :=
  ∀ a m c, l = a ++ m :: c → (∀ k ∈ m.sDomain, k ∈ a.map MCmd.node) ∧
    (∀ k ∈ m.tDomain, k ∈ a.map MCmd.node)

/-- Invariant of the loop of `from_pattern` after the commands `pre`. -/
structure StdInv (inputs : List ℕ) (pre : List Command) (b : StdBody) : Prop where
  nc : (PyDict.keys b.cDict).Nodup
  nx : (PyDict.keys b.xDict).Nodup
  nz : (PyDict.keys b.zDict).Nodup
  lc : ∀ k ∈ PyDict.keys b.cDict, Live inputs pre k
  lx : ∀ k ∈ PyDict.keys b.xDict, Live inputs pre k
  lz : ∀ k ∈ PyDict.keys b.zDict, Live inputs pre k
  edge : ∀ e ∈ b.eSet, ∀ k ∈ e, k ∈ introduced inputs pre
  loop : ∀ e ∈ b.eSet, ¬ e.IsDiag
  nl : b.nList.map Prod.fst = pre.filterMap Command.prepared?
  ml : b.mList.map MCmd.node = measuredIn pre
  mo : MOrdered b.mList
  dx : ∀ k, ∀ i ∈ domAt b.xDict k, i ∈ measuredIn pre
  dz : ∀ k, ∀ i ∈ domAt b.zDict k, i ∈ measuredIn pre
  sem : ∀ r, OpPhaseEq (semCmds r pre) (b.sem r)

theorem semCmds_snoc (r : ℕ → Bool) (l : List Command) (c : Command) (ψ : QState) :
    semCmds r (l ++ [c]) ψ = c.sem r (semCmds r l ψ) := by
  rw [semCmds_append]; rfl

/-- It suffices to push one more command through the accumulators. -/
theorem sem_step {r : ℕ → Bool} {pre : List Command} {c : Command} {F G : QState → QState}
    (h : OpPhaseEq (semCmds r pre) F) (h' : OpPhaseEq (fun ψ => c.sem r (F ψ)) G) :
    OpPhaseEq (semCmds r (pre ++ [c])) G := by
  refine OpPhaseEq.trans ?_ h'
  have h1 := OpPhaseEq.comp_left (c.sem_homog r) h
  exact (OpPhaseEq.of_eq (fun ψ => semCmds_snoc r pre c ψ)).trans h1

theorem MOrdered.snoc {l : List MCmd} {m : MCmd} (h : MOrdered l)
    (hs : ∀ k ∈ m.sDomain, k ∈ l.map MCmd.node) (ht : ∀ k ∈ m.tDomain, k ∈ l.map MCmd.node) :
    MOrdered (l ++ [m]) := by
  intro a m' c he
  rcases List.eq_nil_or_concat c with rfl | ⟨c', x, rfl⟩
  · have := List.append_inj' he rfl
    obtain ⟨rfl, h2⟩ := this
    simp only [List.cons.injEq, and_true] at h2
    subst h2; exact ⟨hs, ht⟩
  · have he' : l ++ [m] = (a ++ m' :: c') ++ [x] := by simpa using he
    have := List.append_inj' he' rfl
    exact h a m' c' this.1

theorem subset_symmDiff_mem {A B : Finset ℕ} {P : ℕ → Prop} (hA : ∀ k ∈ A, P k) (hB : ∀ k ∈ B, P k) :
    ∀ k ∈ A ∆ B, P k := by
  intro k hk
  rw [Finset.mem_symmDiff] at hk
  rcases hk with ⟨h, -⟩ | ⟨h, -⟩
  · exact hA k h
  · exact hB k h

theorem commuteStep_sub {g : Clifford} {d d' : Domains} {P : ℕ → Prop}
    (h : Clifford.commuteStep g d = some d') (hs : ∀ k ∈ d.s, P k) (ht : ∀ k ∈ d.t, P k) :
    (∀ k ∈ d'.s, P k) ∧ (∀ k ∈ d'.t, P k) := by
  unfold Clifford.commuteStep at h
  split_ifs at h <;> cases h
  · exact ⟨hs, ht⟩
  · exact ⟨ht, hs⟩
  · exact ⟨hs, subset_symmDiff_mem ht hs⟩
  · exact ⟨hs, ht⟩

theorem commuteDomains_sub {c : Clifford} {d d' : Domains} {P : ℕ → Prop}
    (h : c.commuteDomains? d = some d') (hs : ∀ k ∈ d.s, P k) (ht : ∀ k ∈ d.t, P k) :
    (∀ k ∈ d'.s, P k) ∧ (∀ k ∈ d'.t, P k) := by
  unfold Clifford.commuteDomains? at h
  generalize c.hsz = l at h
  induction l generalizing d with
  | nil => simp at h; subst h; exact ⟨hs, ht⟩
  | cons g l ih =>
    rw [List.foldlM_cons] at h
    cases hg : Clifford.commuteStep g d with
    | none => rw [hg] at h; simp at h
    | some d1 =>
      rw [hg] at h
      have := commuteStep_sub hg hs ht
      exact ih this.1 this.2 h

theorem keep_live {inputs : List ℕ} {pre : List Command} {c : Command} (hp : c.prepared? = none)
    (hm : c.measured? = none) {k : ℕ} (h : Live inputs pre k) : Live inputs (pre ++ [c]) k := by
  unfold Live at *
  rw [introduced_append, measuredIn_append]
  simpa [hp, hm] using h

theorem keep_meas {pre : List Command} (c : Command) {k : ℕ} (h : k ∈ measuredIn pre) :
    k ∈ measuredIn (pre ++ [c]) := by
  rw [measuredIn_append]; exact List.mem_append_left _ h

theorem keep_intro {inputs : List ℕ} {pre : List Command} (c : Command) {k : ℕ}
    (h : k ∈ introduced inputs pre) : k ∈ introduced inputs (pre ++ [c]) := by
  rw [introduced_append]; exact List.mem_append_left _ h

theorem StdInv.init (inputs : List ℕ) : StdInv inputs [] StdBody.init := by
  refine ⟨?_, ?_, ?_, ?_, ?_, ?_, ?_, ?_, ?_, ?_, ?_, ?_, ?_, fun r => ?_⟩ <;>
    simp [StdBody.init, PyDict.keys, measuredIn, domAt, PyDict.get?]
  · intro a m c h; simp at h
  · refine OpPhaseEq.of_eq (fun ψ => ?_)
    simp [StdBody.sem, corrOp, czSet_empty]

theorem StdInv.stepN {inputs : List ℕ} {pre : List Command} {b : StdBody} (h : StdInv inputs pre b)
    (hR : Runnable inputs pre) {n : ℕ} {st : PlanarState} (ha : Allowed inputs pre (.N n st)) :
    StdInv inputs (pre ++ [.N n st]) { b with nList := b.nList ++ [(n, st)] } := by
  have ha' : n ∉ introduced inputs pre := ha
  have live : ∀ {k}, Live inputs pre k → Live inputs (pre ++ [.N n st]) k := by
    intro k hk
    refine ⟨keep_intro _ hk.1, ?_⟩
    rw [measuredIn_append]
    simpa [List.filterMap_cons, Command.measured?] using hk.2
  have nk : ∀ {β : Type} {d : PyDict ℕ β}, (∀ k ∈ PyDict.keys d, Live inputs pre k) →
      n ∉ PyDict.keys d := fun hd hn => ha' (hd n hn).1
  refine ⟨h.nc, h.nx, h.nz, fun k hk => live (h.lc k hk), fun k hk => live (h.lx k hk),
    fun k hk => live (h.lz k hk), fun e he k hk => keep_intro _ (h.edge e he k hk), h.loop, ?_, ?_,
    h.mo, fun k i hi => keep_meas _ (h.dx k i hi), fun k i hi => keep_meas _ (h.dz k i hi),
    fun r => sem_step (h.sem r) (OpPhaseEq.of_eq (fun ψ => ?_))⟩
  · simp only [List.map_append, List.map_cons, List.map_nil, h.nl, List.filterMap_append]
    rfl
  · rw [measuredIn_append, h.ml]; simp [List.filterMap_cons, Command.measured?]
  · simp only [StdBody.sem, Command.sem, List.map_append, List.map_cons, List.map_nil, semCmds_snoc,
      nCmd]
    rw [corrOp_prep r _ (nk h.lc) (nk h.lx) (nk h.lz)]
    congr 1
    rw [semCmds_meas_comm r b.mList (prep n st.vec), czSet_prep]
    intro m hm U φ
    apply prep_op1_of_ne
    rintro rfl
    apply ha'
    apply hR.measured_sub
    rw [← h.ml]; exact List.mem_map_of_mem hm

theorem StdInv.stepE {inputs : List ℕ} {pre : List Command} {b b' : StdBody} (h : StdInv inputs pre b)
    {u v : ℕ} (huv : u ≠ v) (ha : Allowed inputs pre (.E u v)) (hs : b.step (.E u v) = .ok b') :
    StdInv inputs (pre ++ [.E u v]) b' := by
  obtain ⟨hu, hv⟩ : Live inputs pre u ∧ Live inputs pre v := ha
  have hs' : (b.edgeSide u v >>= fun b1 => b1.edgeSide v u >>= fun b2 =>
      pure { b2 with eSet := b2.eSet ∆ {s(u, v)} }) = Except.ok b' := hs
  cases h1 : b.edgeSide u v with
  | error e => rw [h1] at hs'; cases hs'
  | ok b1 =>
    rw [h1] at hs'
    change (b1.edgeSide v u >>= _) = _ at hs'
    cases h2 : b1.edgeSide v u with
    | error e => rw [h2] at hs'; cases hs'
    | ok b2 =>
      rw [h2] at hs'
      cases hs'
      have hsem := fun r => corrOp_edge r huv h.nc h.nx h.nz h1 h2
      obtain ⟨a, -, e1⟩ := edgeSide_ok h1
      obtain ⟨a', -, e2⟩ := edgeSide_ok h2
      have ec : b2.cDict = flipC a' (flipC a b.cDict v) u := by rw [e2, e1]; rfl
      have ex : b2.xDict = b.xDict := by rw [e2, e1]
      have ez : b2.zDict = addIf (addIf b.zDict v (domAt b.xDict u)) u (domAt b.xDict v) := by
        rw [e2, e1]
      have ee : b2.eSet = b.eSet := by rw [e2, e1]
      have en : b2.nList = b.nList := by rw [e2, e1]
      have em : b2.mList = b.mList := by rw [e2, e1]
      have kl : ∀ {k}, Live inputs pre k → Live inputs (pre ++ [.E u v]) k :=
        fun hk => keep_live rfl rfl hk
      have ed : ∀ e ∈ b.eSet ∆ {s(u, v)}, e = s(u, v) ∨ e ∈ b.eSet := by
        intro e he
        rw [Finset.mem_symmDiff, Finset.mem_singleton] at he
        rcases he with ⟨he, -⟩ | ⟨he, -⟩
        · exact Or.inr he
        · exact Or.inl he
      refine ⟨?_, ?_, ?_, ?_, ?_, ?_, ?_, ?_, ?_, ?_, ?_, ?_, ?_, fun r => ?_⟩
      · simp only [ec]; exact nodup_flipC (nodup_flipC h.nc _ _) _ _
      · simp only [ex]; exact h.nx
      · simp only [ez]; exact nodup_addIf (nodup_addIf h.nz _ _) _ _
      · simp only [ec]; intro k hk
        rcases keys_flipC hk with rfl | hk
        · exact kl hu
        rcases keys_flipC hk with rfl | hk
        · exact kl hv
        · exact kl (h.lc k hk)
      · simp only [ex]; exact fun k hk => kl (h.lx k hk)
      · simp only [ez]; intro k hk
        rcases keys_addIf hk with rfl | hk
        · exact kl hu
        rcases keys_addIf hk with rfl | hk
        · exact kl hv
        · exact kl (h.lz k hk)
      · simp only [ee]; intro e he k hk
        rcases ed e he with rfl | he
        · rw [Sym2.mem_iff] at hk
          rcases hk with rfl | rfl
          · exact (kl hu).1
          · exact (kl hv).1
        · exact keep_intro _ (h.edge e he k hk)
      · simp only [ee]; intro e he
        rcases ed e he with rfl | he
        · simpa using huv
        · exact h.loop e he
      · simp only [en, h.nl, List.filterMap_append]; simp [List.filterMap_cons, Command.prepared?]
      · simp only [em, h.ml, measuredIn_append]; simp [List.filterMap_cons, Command.measured?]
      · simp only [em]; exact h.mo
      · simp only [ex]; exact fun k i hi => keep_meas _ (h.dx k i hi)
      · simp only [ez]; intro k i hi
        refine keep_meas _ ?_
        rw [domAt_addIf] at hi
        have hz1 : ∀ k, ∀ i ∈ domAt (addIf b.zDict v (domAt b.xDict u)) k, i ∈ measuredIn pre := by
          intro k i hi
          rw [domAt_addIf] at hi
          split at hi
          · exact subset_symmDiff_mem (h.dz v) (h.dx u) i hi
          · exact h.dz k i hi
        split at hi
        · exact subset_symmDiff_mem (hz1 u) (h.dx v) i hi
        · exact hz1 k i hi
      · refine sem_step (h.sem r) ?_
        have h3 := OpPhaseEq.comp_right (hsem r) (fun ψ => semCmds r (b.mList.map MCmd.toCmd)
          (czSet b.eSet (semCmds r (b.nList.map nCmd) ψ)))
        refine OpPhaseEq.trans h3 (OpPhaseEq.of_eq (fun ψ => ?_))
        simp only [StdBody.sem, em, ee, en]
        congr 1
        rw [semCmds_meas_comm r b.mList (cz u v), czSet_toggle]
        intro m hm U φ
        have hmm : m.node ∈ measuredIn pre := by rw [← h.ml]; exact List.mem_map_of_mem hm
        exact cz_op1_of_ne U (fun e : u = m.node => hu.2 (e ▸ hmm)) (fun e : v = m.node => hv.2 (e ▸ hmm)) φ

theorem meas_phase (r : ℕ → Bool) (m : Measurement) (o : Bool) (c : Clifford) (d : Domains)
    (x z : Finset ℕ) : ∃ d', c.commuteDomains? d = some d' ∧
      MatPhaseEq (bra (measVec m o) * (powB Ops.X (parity r d.s) * powB Ops.Z (parity r d.t)) *
          (c.matrix * (powB Ops.X (parity r x) * powB Ops.Z (parity r z))))
        (bra (measVec (m.clifford c) o) *
          (powB Ops.X (parity r (d'.s ∆ x)) * powB Ops.Z (parity r (d'.t ∆ z)))) := by
  obtain ⟨d', h, h'⟩ := C04_commute_domains c d
  refine ⟨d', h, ?_⟩
  have h1 := ((MatPhaseEq.refl (bra (measVec m o))).mul (h' r)).mul
    (MatPhaseEq.refl (powB Ops.X (parity r x) * powB Ops.Z (parity r z)))
  have h2 := (bra_clifford m c o).mul (((MatPhaseEq.refl (powB Ops.X (parity r d'.s))).mul
    (powX_powZ_comm (parity r x) (parity r d'.t)).symm).mul (MatPhaseEq.refl (powB Ops.Z (parity r z))))
  rw [parity_symmDiff, parity_symmDiff, ← powB_mul_X, ← powB_mul_Z]
  simp only [Matrix.mul_assoc] at h1 h2 ⊢
  exact h1.trans h2

theorem measureCase_ok {b b' : StdBody} {cmd : MCmd} (h : b.measureCase cmd = .ok b') :
    ∃ d', ((PyDict.get? b.cDict cmd.node).getD Clifford.I).commuteDomains? ⟨cmd.sDomain, cmd.tDomain⟩ =
        some d' ∧ ∃ m', (∀ o, MatPhaseEq (bra (measVec m' o))
          (bra (measVec (cmd.measurement.clifford ((PyDict.get? b.cDict cmd.node).getD Clifford.I)) o))) ∧
      b' = { b with
        cDict := PyDict.erase b.cDict cmd.node
        zDict := PyDict.erase b.zDict cmd.node
        xDict := PyDict.erase b.xDict cmd.node
        mList := b.mList ++ [⟨cmd.node, m', d'.s ∆ domAt b.xDict cmd.node,
          d'.t ∆ domAt b.zDict cmd.node⟩] } := by
  unfold StdBody.measureCase at h
  cases hg : PyDict.get? b.cDict cmd.node with
  | none =>
    simp only [hg] at h
    refine ⟨⟨cmd.sDomain, cmd.tDomain⟩, rfl, cmd.measurement, fun o => ?_, ?_⟩
    · have := bra_clifford cmd.measurement Clifford.I o
      rwa [Clifford.matrix_I, Matrix.mul_one] at this
    · cases h; rfl
  | some g =>
    simp only [hg] at h
    cases hd : g.commuteDomains? ⟨cmd.sDomain, cmd.tDomain⟩ with
    | none =>
      have : cmd.clifford? g = none := by simp [MCmd.clifford?, hd]
      rw [this] at h; cases h
    | some d =>
      have : cmd.clifford? g = some ⟨cmd.node, cmd.measurement.clifford g, d.s, d.t⟩ := by
        simp [MCmd.clifford?, hd]
      rw [this] at h
      refine ⟨d, hd, cmd.measurement.clifford g, fun o => MatPhaseEq.refl _, ?_⟩
      cases h; rfl

theorem StdInv.stepM {inputs : List ℕ} {pre : List Command} {b b' : StdBody} (h : StdInv inputs pre b)
    {n : ℕ} {m : Measurement} {s t : Finset ℕ} (ha : Allowed inputs pre (.M n m s t))
    (hs : b.step (.M n m s t) = .ok b') : StdInv inputs (pre ++ [.M n m s t]) b' := by
  obtain ⟨hn, hsd, htd⟩ : Live inputs pre n ∧ (∀ k ∈ s, k ∈ measuredIn pre) ∧
    (∀ k ∈ t, k ∈ measuredIn pre) := ha
  have hs' : b.measureCase ⟨n, m, s, t⟩ = .ok b' := hs
  obtain ⟨d', hd, m', hm', rfl⟩ := measureCase_ok hs'
  simp only at hd
  have live : ∀ {k}, Live inputs pre k → k ≠ n → Live inputs (pre ++ [.M n m s t]) k := by
    intro k hk hkn
    refine ⟨keep_intro _ hk.1, ?_⟩
    rw [measuredIn_append]
    simp only [List.filterMap_cons, Command.measured?, List.filterMap_nil, List.mem_append,
      List.mem_singleton, not_or]
    exact ⟨hk.2, hkn⟩
  have kl : ∀ {β : Type} {d : PyDict ℕ β}, (PyDict.keys d).Nodup → (∀ k ∈ PyDict.keys d, Live inputs pre k) →
      ∀ k ∈ PyDict.keys (PyDict.erase d n), Live inputs (pre ++ [.M n m s t]) k := by
    intro β d hnd hd k hk
    rw [PyDict.keys_erase] at hk
    have := (hnd.mem_erase_iff).1 hk
    exact live (hd k this.2) this.1
  have hsub := commuteDomains_sub hd hsd htd
  refine ⟨keys_erase_nodup h.nc n, keys_erase_nodup h.nx n, keys_erase_nodup h.nz n, kl h.nc h.lc,
    kl h.nx h.lx, kl h.nz h.lz, fun e he k hk => keep_intro _ (h.edge e he k hk), h.loop, ?_, ?_, ?_,
    ?_, ?_, fun r => sem_step (h.sem r) ?_⟩
  · simp only [h.nl, List.filterMap_append]; simp [List.filterMap_cons, Command.prepared?]
  · simp only [List.map_append, h.ml, measuredIn_append]
    rfl
  · refine h.mo.snoc ?_ ?_ <;> rw [h.ml]
    · exact subset_symmDiff_mem hsub.1 (h.dx n)
    · exact subset_symmDiff_mem hsub.2 (h.dz n)
  · intro k i hi
    refine keep_meas _ ?_
    unfold domAt at hi
    rw [PyDict.get?_erase h.nx] at hi
    split at hi
    · simp at hi
    · exact h.dx k i hi
  · intro k i hi
    refine keep_meas _ ?_
    unfold domAt at hi
    rw [PyDict.get?_erase h.nz] at hi
    split at hi
    · simp at hi
    · exact h.dz k i hi
  · obtain ⟨d2, hd2, hph⟩ := meas_phase r m (r n) ((PyDict.get? b.cDict n).getD Clifford.I) ⟨s, t⟩
      (domAt b.xDict n) (domAt b.zDict n)
    rw [hd] at hd2
    cases hd2
    have hph' := hph.trans ((hm' (r n)).symm.mul (MatPhaseEq.refl _))
    set R := corrOp r (PyDict.erase b.cDict n) (PyDict.erase b.xDict n) (PyDict.erase b.zDict n) with hRdef
    set G := fun ψ => semCmds r (b.mList.map MCmd.toCmd) (czSet b.eSet (semCmds r (b.nList.map nCmd) ψ)) with hG
    have e1 : ∀ ψ, (Command.M n m s t).sem r (b.sem r ψ) =
        R (op1 (bra (measVec m (r n)) * (powB Ops.X (parity r s) * powB Ops.Z (parity r t)) *
          locOp r b.cDict b.xDict b.zDict n) n (G ψ)) := by
      intro ψ
      simp only [StdBody.sem]
      rw [corrOp_split r h.nc h.nx h.nz n]
      simp only [Command.sem, projOut_eq_op1]
      rw [corrOp_op1 r _ (not_mem_keys_erase h.nc n) (not_mem_keys_erase h.nx n) (not_mem_keys_erase h.nz n),
        corrOp_op1 r _ (not_mem_keys_erase h.nc n) (not_mem_keys_erase h.nx n) (not_mem_keys_erase h.nz n),
        corrOp_op1 r _ (not_mem_keys_erase h.nc n) (not_mem_keys_erase h.nx n) (not_mem_keys_erase h.nz n)]
      simp only [op1_mul, Matrix.mul_assoc]
      rfl
    have e2 : ∀ ψ, StdBody.sem { b with
        cDict := PyDict.erase b.cDict n
        zDict := PyDict.erase b.zDict n
        xDict := PyDict.erase b.xDict n
        mList := b.mList ++ [⟨n, m', d'.s ∆ domAt b.xDict n,
          d'.t ∆ domAt b.zDict n⟩] } r ψ =
        R (op1 (bra (measVec m' (r n)) * (powB Ops.X (parity r (d'.s ∆ domAt b.xDict n)) *
          powB Ops.Z (parity r (d'.t ∆ domAt b.zDict n)))) n (G ψ)) := by
      intro ψ
      simp only [StdBody.sem, List.map_append, List.map_cons, List.map_nil, semCmds_snoc, MCmd.toCmd,
        Command.sem, projOut_eq_op1, op1_mul, Matrix.mul_assoc]
      rfl
    refine (OpPhaseEq.of_eq e1).trans (OpPhaseEq.trans ?_ (OpPhaseEq.of_eq (fun ψ => (e2 ψ).symm)))
    rw [locOp_eq]
    have h5 := OpPhaseEq.comp_left (corrOp_homog r _ _ _ : Homog R) (hph'.opPhase n)
    exact OpPhaseEq.comp_right h5 G

theorem correctionCase_ok {b b' : StdBody} {n : ℕ} {d : Domains} (h : b.correctionCase n d = .ok b') :
    ∃ d', ((PyDict.get? b.cDict n).getD Clifford.I).commuteDomains? d = some d' ∧
      b' = { b with zDict := addIf b.zDict n d'.t, xDict := addIf b.xDict n d'.s } := by
  unfold StdBody.correctionCase at h
  split at h
  · cases h
  · rename_i d' hd
    refine ⟨d', hd, ?_⟩
    cases h; rfl

theorem StdInv.stepCorr {inputs : List ℕ} {pre : List Command} {b b' : StdBody} (h : StdInv inputs pre b)
    {n : ℕ} {d : Domains} {c : Command} (hp : c.prepared? = none) (hm : c.measured? = none)
    (hn : Live inputs pre n) (hds : ∀ k ∈ d.s, k ∈ measuredIn pre) (hdt : ∀ k ∈ d.t, k ∈ measuredIn pre)
    (hsem : ∀ r ψ, c.sem r ψ = op1 (powB Ops.X (parity r d.s) * powB Ops.Z (parity r d.t)) n ψ)
    (hs : b.correctionCase n d = .ok b') : StdInv inputs (pre ++ [c]) b' := by
  obtain ⟨d', hd, rfl⟩ := correctionCase_ok hs
  have kl : ∀ {k}, Live inputs pre k → Live inputs (pre ++ [c]) k := fun hk => keep_live hp hm hk
  have hsub := commuteDomains_sub hd hds hdt
  have dom : ∀ {D : PyDict ℕ (Finset ℕ)} {A : Finset ℕ},
      (∀ k, ∀ i ∈ domAt D k, i ∈ measuredIn pre) → (∀ i ∈ A, i ∈ measuredIn pre) →
      ∀ k, ∀ i ∈ domAt (addIf D n A) k, i ∈ measuredIn (pre ++ [c]) := by
    intro D A hD hA k i hi
    refine keep_meas _ ?_
    rw [domAt_addIf] at hi
    split at hi
    · exact subset_symmDiff_mem (hD n) hA i hi
    · exact hD k i hi
  have keys : ∀ {D : PyDict ℕ (Finset ℕ)} {A : Finset ℕ}, (∀ k ∈ PyDict.keys D, Live inputs pre k) →
      ∀ k ∈ PyDict.keys (addIf D n A), Live inputs (pre ++ [c]) k := by
    intro D A hD k hk
    rcases keys_addIf hk with rfl | hk
    · exact kl hn
    · exact kl (hD k hk)
  refine ⟨h.nc, nodup_addIf h.nx _ _, nodup_addIf h.nz _ _, fun k hk => kl (h.lc k hk), keys h.lx,
    keys h.lz, fun e he k hk => keep_intro _ (h.edge e he k hk), h.loop, ?_, ?_, h.mo,
    dom h.dx hsub.1, dom h.dz hsub.2, fun r => sem_step (h.sem r) ?_⟩
  · simp [h.nl, List.filterMap_append, List.filterMap_cons, hp]
  · simp [h.ml, measuredIn_append, List.filterMap_cons, hm]
  · obtain ⟨d2, hd2, hph⟩ := C04_commute_domains ((PyDict.get? b.cDict n).getD Clifford.I) d
    rw [hd] at hd2
    cases hd2
    have hph := hph r
    set R := corrOp r (PyDict.erase b.cDict n) (PyDict.erase b.xDict n) (PyDict.erase b.zDict n) with hRdef
    set G := fun ψ => semCmds r (b.mList.map MCmd.toCmd) (czSet b.eSet (semCmds r (b.nList.map nCmd) ψ)) with hG
    have e1 : ∀ ψ, c.sem r (b.sem r ψ) =
        R (op1 (powB Ops.X (parity r d.s) * powB Ops.Z (parity r d.t) *
          locOp r b.cDict b.xDict b.zDict n) n (G ψ)) := by
      intro ψ
      simp only [StdBody.sem]
      rw [corrOp_split r h.nc h.nx h.nz n, hsem]
      rw [corrOp_op1 r _ (not_mem_keys_erase h.nc n) (not_mem_keys_erase h.nx n) (not_mem_keys_erase h.nz n)]
      simp only [op1_mul, Matrix.mul_assoc]
      rfl
    have e2 : ∀ ψ, StdBody.sem { b with zDict := addIf b.zDict n d'.t, xDict := addIf b.xDict n d'.s } r ψ =
        R (op1 (locOp r b.cDict (addIf b.xDict n d'.s) (addIf b.zDict n d'.t) n) n (G ψ)) := by
      intro ψ
      simp only [StdBody.sem]
      rw [corrOp_split r h.nc (nodup_addIf h.nx _ _) (nodup_addIf h.nz _ _) n, erase_addIf, erase_addIf]
    refine (OpPhaseEq.of_eq e1).trans (OpPhaseEq.trans ?_ (OpPhaseEq.of_eq (fun ψ => (e2 ψ).symm)))
    have hl : MatPhaseEq (powB Ops.X (parity r d.s) * powB Ops.Z (parity r d.t) *
          locOp r b.cDict b.xDict b.zDict n)
        (locOp r b.cDict (addIf b.xDict n d'.s) (addIf b.zDict n d'.t) n) := by
      rw [locOp_eq, locOp_eq, domAt_addIf_self, domAt_addIf_self, ← Matrix.mul_assoc]
      refine (hph.mul (MatPhaseEq.refl _)).trans ?_
      rw [parity_symmDiff, parity_symmDiff, Bool.xor_comm (parity r (domAt b.xDict n)),
        Bool.xor_comm (parity r (domAt b.zDict n)), ← powB_mul_X, ← powB_mul_Z]
      have h2 := ((MatPhaseEq.refl (cAt b.cDict n)).mul (((MatPhaseEq.refl (powB Ops.X (parity r d'.s))).mul
        (powX_powZ_comm (parity r (domAt b.xDict n)) (parity r d'.t)).symm).mul
          (MatPhaseEq.refl (powB Ops.Z (parity r (domAt b.zDict n))))))
      simp only [Matrix.mul_assoc] at h2 ⊢
      exact h2
    have h5 := OpPhaseEq.comp_left (corrOp_homog r _ _ _ : Homog R) (hl.opPhase n)
    exact OpPhaseEq.comp_right h5 G

theorem StdInv.stepC {inputs : List ℕ} {pre : List Command} {b : StdBody} (h : StdInv inputs pre b)
    {n : ℕ} {g : Clifford} (hn : Live inputs pre n) :
    StdInv inputs (pre ++ [.C n g]) { b with
      cDict := PyDict.set b.cDict n (g.mul ((PyDict.get? b.cDict n).getD Clifford.I)) } := by
  have kl : ∀ {k}, Live inputs pre k → Live inputs (pre ++ [.C n g]) k := fun hk => keep_live rfl rfl hk
  refine ⟨PyDict.keys_set_nodup h.nc _ _, h.nx, h.nz, ?_, fun k hk => kl (h.lx k hk),
    fun k hk => kl (h.lz k hk), fun e he k hk => keep_intro _ (h.edge e he k hk), h.loop, ?_, ?_, h.mo,
    fun k i hi => keep_meas _ (h.dx k i hi), fun k i hi => keep_meas _ (h.dz k i hi),
    fun r => sem_step (h.sem r) ?_⟩
  · intro k hk
    rcases (PyDict.mem_keys_set b.cDict n _ k).1 hk with rfl | hk
    · exact kl hn
    · exact kl (h.lc k hk)
  · simp [h.nl, List.filterMap_append, List.filterMap_cons, Command.prepared?]
  · simp [h.ml, measuredIn_append, List.filterMap_cons, Command.measured?]
  · set R := corrOp r (PyDict.erase b.cDict n) (PyDict.erase b.xDict n) (PyDict.erase b.zDict n) with hRdef
    set G := fun ψ => semCmds r (b.mList.map MCmd.toCmd) (czSet b.eSet (semCmds r (b.nList.map nCmd) ψ)) with hG
    have e1 : ∀ ψ, (Command.C n g).sem r (b.sem r ψ) =
        R (op1 (g.matrix * locOp r b.cDict b.xDict b.zDict n) n (G ψ)) := by
      intro ψ
      simp only [StdBody.sem, Command.sem]
      rw [corrOp_split r h.nc h.nx h.nz n]
      rw [corrOp_op1 r _ (not_mem_keys_erase h.nc n) (not_mem_keys_erase h.nx n) (not_mem_keys_erase h.nz n)]
      simp only [op1_mul]
      rfl
    set c2 := PyDict.set b.cDict n (g.mul ((PyDict.get? b.cDict n).getD Clifford.I)) with hc2
    have e2 : ∀ ψ, StdBody.sem { b with cDict := c2 } r ψ =
        R (op1 (locOp r c2 b.xDict b.zDict n) n (G ψ)) := by
      intro ψ
      simp only [StdBody.sem]
      rw [corrOp_split r (PyDict.keys_set_nodup h.nc _ _) h.nx h.nz n, hc2, erase_set]
    refine (OpPhaseEq.of_eq e1).trans (OpPhaseEq.trans ?_ (OpPhaseEq.of_eq (fun ψ => (e2 ψ).symm)))
    have hl : MatPhaseEq (g.matrix * locOp r b.cDict b.xDict b.zDict n)
        (locOp r c2 b.xDict b.zDict n) := by
      rw [locOp_eq, locOp_eq, hc2, cAt_set, if_pos rfl, ← Matrix.mul_assoc]
      exact (C01_clifford_matmul g _).symm.mul (MatPhaseEq.refl _)
    have h5 := OpPhaseEq.comp_left (corrOp_homog r _ _ _ : Homog R) (hl.opPhase n)
    exact OpPhaseEq.comp_right h5 G

/-- No command entangles a node with itself. -/
def NoSelfLoop (l : List Command) : Prop := ∀ u v, Command.E u v ∈ l → u ≠ v

theorem StdInv.step {inputs : List ℕ} {pre : List Command} {b b' : StdBody} (h : StdInv inputs pre b)
    (hR : Runnable inputs pre) {c : Command} (hc : ∀ u v, c = .E u v → u ≠ v)
    (ha : Allowed inputs pre c) (hs : b.step c = .ok b') : StdInv inputs (pre ++ [c]) b' := by
  cases c with
  | N n st => cases hs; exact h.stepN hR ha
  | M n m s t => exact h.stepM ha hs
  | E u v => exact h.stepE (hc u v rfl) ha hs
  | C n g => cases hs; exact h.stepC ha
  | X n d =>
    refine h.stepCorr (d := ⟨d, ∅⟩) rfl rfl ha.1 ha.2 (by simp) (fun r ψ => ?_) hs
    simp [Command.sem, parity_empty, powB_false]
  | Z n d =>
    refine h.stepCorr (d := ⟨∅, d⟩) rfl rfl ha.1 (by simp) ha.2 (fun r ψ => ?_) hs
    simp [Command.sem, parity_empty, powB_false]
  | S n d =>
    cases hs
    refine ⟨h.nc, h.nx, h.nz, fun k hk => keep_live rfl rfl (h.lc k hk),
      fun k hk => keep_live rfl rfl (h.lx k hk), fun k hk => keep_live rfl rfl (h.lz k hk),
      fun e he k hk => keep_intro _ (h.edge e he k hk), h.loop, ?_, ?_, h.mo,
      fun k i hi => keep_meas _ (h.dx k i hi), fun k i hi => keep_meas _ (h.dz k i hi),
      fun r => sem_step (h.sem r) (OpPhaseEq.refl _)⟩
    · simp [h.nl, List.filterMap_append, List.filterMap_cons, Command.prepared?]
    · simp [h.ml, measuredIn_append, List.filterMap_cons, Command.measured?]
  | T =>
    cases hs
    refine ⟨h.nc, h.nx, h.nz, fun k hk => keep_live rfl rfl (h.lc k hk),
      fun k hk => keep_live rfl rfl (h.lx k hk), fun k hk => keep_live rfl rfl (h.lz k hk),
      fun e he k hk => keep_intro _ (h.edge e he k hk), h.loop, ?_, ?_, h.mo,
      fun k i hi => keep_meas _ (h.dx k i hi), fun k i hi => keep_meas _ (h.dz k i hi),
      fun r => sem_step (h.sem r) (OpPhaseEq.refl _)⟩
    · simp [h.nl, List.filterMap_append, List.filterMap_cons, Command.prepared?]
    · simp [h.ml, measuredIn_append, List.filterMap_cons, Command.measured?]

theorem StdInv.run {inputs : List ℕ} (l : List Command) :
    ∀ {pre : List Command} {b b' : StdBody}, StdInv inputs pre b → Runnable inputs (pre ++ l) →
    NoSelfLoop l → b.run l = .ok b' → StdInv inputs (pre ++ l) b' := by
  induction l with
  | nil => intro pre b b' h _ _ hr; cases hr; simpa using h
  | cons c l ih =>
    intro pre b b' h hR hE hr
    change (b.step c >>= fun b => b.run l) = _ at hr
    cases hs : b.step c with
    | error e => rw [hs] at hr; cases hr
    | ok b1 =>
      rw [hs] at hr
      have h1 := h.step hR.prefix (fun u v e => hE u v (by simp [e])) (hR pre c l rfl) hs
      have := ih h1 (by simpa using hR) (fun u v hm => hE u v (by simp [hm])) hr
      simpa using this

theorem fromPattern_ok {p : Pattern} {sp : StdPattern} (h : StdPattern.fromPattern p = .ok sp) :
    Runnable p.inputs p.seq ∧ StdBody.init.run p.seq = .ok sp.toStdBody ∧ sp.inputs = p.inputs ∧
    sp.outputs = p.outputs := by
  unfold StdPattern.fromPattern at h
  cases hc : p.checkRunnability with
  | error e => rw [hc] at h; cases h
  | ok u =>
    rw [hc] at h
    refine ⟨(checkRunnability_iff p).1 hc, ?_⟩
    cases hr : StdBody.init.run p.seq with
    | error e => simp only [hr] at h; cases h
    | ok b => simp only [hr] at h; cases h; exact ⟨rfl, rfl, rfl⟩

theorem fromPattern_inv {p : Pattern} {sp : StdPattern} (hE : NoSelfLoop p.seq)
    (h : StdPattern.fromPattern p = .ok sp) : StdInv p.inputs p.seq sp.toStdBody := by
  obtain ⟨h1, h2, -, -⟩ := fromPattern_ok h
  have := StdInv.run p.seq (StdInv.init p.inputs) (by simpa using h1) hE h2
  simpa using this

end Graphix
