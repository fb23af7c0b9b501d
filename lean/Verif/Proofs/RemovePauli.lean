import Verif.Model.RemovePauli
import Verif.Proofs.StdSem
import Verif.Proofs.Reindex
import Verif.Spec.OpenGraphMap

/-! Helper lemmas on the removal of Pauli measurements. -/

namespace Graphix

open Function

/-! ### Cliffords, Pauli measurements, domains -/

theorem Clifford.mul_I (c : Clifford) : c.mul Clifford.I = c := by revert c; decide
theorem Clifford.I_mul (c : Clifford) : Clifford.I.mul c = c := by revert c; decide

theorem measureEntry_mul : ∀ (c d : Fin 24) (a : Axis),
    measureEntry ((Clifford.ofFin c).mul (Clifford.ofFin d)) a =
      ((measureEntry (Clifford.ofFin d) (measureEntry (Clifford.ofFin c) a).1).1,
        (measureEntry (Clifford.ofFin c) a).2.mul (measureEntry (Clifford.ofFin d) (measureEntry (Clifford.ofFin c) a).1).2) := by
  decide +kernel

theorem PauliMeasurement.clifford_mul (m : PauliMeasurement) (c d : Clifford) :
    (m.clifford c).clifford d = m.clifford (c.mul d) := by
  have h := measureEntry_mul c d m.axis
  change measureEntry (c.mul d) m.axis = ((measureEntry d (measureEntry c m.axis).1).1,
    (measureEntry c m.axis).2.mul (measureEntry d (measureEntry c m.axis).1).2) at h
  simp only [PauliMeasurement.clifford, PauliMeasurement.clifford?_entry, Option.getD_some, h]
  congr 1
  cases m.sign <;> cases (measureEntry c m.axis).2 <;> cases (measureEntry d (measureEntry c m.axis).1).2 <;> rfl

theorem PauliMeasurement.clifford_I (m : PauliMeasurement) : m.clifford Clifford.I = m := by
  obtain ⟨a, s⟩ := m; cases a <;> cases s <;> decide

theorem rpmStep_sub {g : Clifford} {d d' : Domains} (h : Clifford.commuteStep g d = some d') :
    d'.s ∪ d'.t ⊆ d.s ∪ d.t := by
  unfold Clifford.commuteStep at h
  split_ifs at h <;> cases h
  · exact subset_rfl
  · rw [Finset.union_comm]
  · intro x hx
    simp only [Finset.mem_union, Finset.mem_symmDiff] at hx ⊢
    tauto
  · exact subset_rfl

theorem rpmDomains_sub {c : Clifford} {d d' : Domains} (h : c.commuteDomains? d = some d') :
    d'.s ∪ d'.t ⊆ d.s ∪ d.t := by
  unfold Clifford.commuteDomains? at h
  generalize c.hsz = l at h
  induction l generalizing d with
  | nil => cases h; exact subset_rfl
  | cons g l ih =>
    rw [List.foldlM_cons] at h
    cases hg : Clifford.commuteStep g d with
    | none => rw [hg] at h; cases h
    | some d1 =>
      rw [hg] at h
      exact (ih h).trans (rpmStep_sub hg)

/-! ### Renaming -/

theorem ren_locOps {σ : Equiv.Perm ℕ} (F : ℕ → Mat2) (l : List ℕ) (φ : QState) :
    ren σ (locOps F l φ) = locOps (fun n => F (σ.symm n)) (l.map σ) (ren σ φ) := by
  induction l with
  | nil => rfl
  | cons a l ih =>
    simp only [locOps, List.map_cons]
    rw [← ih, ← op1_ren σ.injective, σ.symm_apply_apply]

theorem edgesOf_map (σ : Equiv.Perm ℕ) (adj : ℕ → ℕ → Bool) (l : List ℕ) :
    edgesOf (fun x y => adj (σ.symm x) (σ.symm y)) (l.map σ) = (edgesOf adj l).map fun e => (σ e.1, σ e.2) := by
  induction l with
  | nil => rfl
  | cons a l ih =>
    simp only [List.map_cons, edgesOf, List.map_append, List.map_map, ih]
    congr 1
    rw [List.filter_map, List.map_map]
    congr 1
    apply List.filter_congr
    intro x _
    simp

theorem ren_entangleAll {σ : Equiv.Perm ℕ} (adj : ℕ → ℕ → Bool) (l : List ℕ) (φ : QState) :
    ren σ (entangleAll adj l φ) = entangleAll (fun x y => adj (σ.symm x) (σ.symm y)) (l.map σ) (ren σ φ) := by
  unfold entangleAll
  rw [edgesOf_map]
  generalize edgesOf adj l = es
  induction es generalizing φ with
  | nil => rfl
  | cons e es ih => rw [List.foldl_cons, ih, List.map_cons, List.foldl_cons, cz_ren]

theorem ren_ren (σ τ : Equiv.Perm ℕ) (φ : QState) : ren σ (ren τ φ) = ren (τ.trans σ : Equiv.Perm ℕ) φ := rfl

theorem ren_smul (f : ℕ → ℕ) (c : ℂ) (φ : QState) : ren f (c • φ) = c • ren f φ := rfl

theorem entangleAll_perm {adj : ℕ → ℕ → Bool} (hs : ∀ x y, adj x y = adj y x) {l l' : List ℕ} (h : l.Perm l') (φ : QState) :
    entangleAll adj l φ = entangleAll adj l' φ := by
  funext b; rw [entangleAll_apply, entangleAll_apply, edgePar_perm hs h]

theorem entangleAll_congr {adj adj' : ℕ → ℕ → Bool} {l : List ℕ} (h : ∀ x ∈ l, ∀ y ∈ l, adj x y = adj' x y) (φ : QState) :
    entangleAll adj l φ = entangleAll adj' l φ := by
  funext b; rw [entangleAll_apply, entangleAll_apply, edgePar_congr h fun _ _ => rfl]

/-- The input state (possibly with an environment): no qubit is named like a prepared node. -/
abbrev StdPattern.InOk (sp : StdPattern) (ψ : QState) : Prop := Absent (sp.nList.map Prod.fst).toFinset ψ

theorem Absent.noBit {s : Finset ℕ} {ψ : QState} (h : Absent s ψ) {n : ℕ} (hn : n ∈ s) : NoBit n ψ := by
  intro b x
  refine h _ _ fun m hm => ?_
  rw [update_of_ne]; rintro rfl; exact hm hn

/-! ### Meaning of the intermediate states -/

/-- What is left of a measured node of the pattern; nothing for the outputs. -/
noncomputable def StdPattern.baseOp (sp : StdPattern) (r : ℕ → Bool) (w : ℕ) : Mat2 :=
  if w ∈ sp.measNodes then sp.nodeOp r w else 1

/-- The operator applied to a node with annotation `s`. -/
noncomputable def StdPattern.specOp (sp : StdPattern) (r : ℕ → Bool) (s : NodeSpec) : Mat2 :=
  sp.baseOp r s.src * (s.clifford.matrix * (powB Ops.X (parity r s.domains.s) * powB Ops.Z (parity r s.domains.t)))

/-- The state described by the intermediate data in branch `r` (branches are indexed by original names). -/
noncomputable def Rpm.val (sp : StdPattern) (r : ℕ → Bool) (p : Rpm) (ψ : QState) : QState :=
  locOps (fun n => sp.specOp r (p.specs n)) p.nodes (entangleAll p.adj p.nodes ψ)

/-- The Pauli measurement of an original node. -/
def PauliCut.pauliOf (cut : PauliCut) (w : ℕ) : Option PauliMeasurement :=
  match cut.pauli.find? (fun m => m.node = w) with
  | some ⟨_, .pauli m, _, _⟩ => some m
  | _ => none

/-- The invariant of the algorithm (but for the outputs).  `π n` is the original name of the node now called `n`. -/
structure RInv (sp : StdPattern) (cut : PauliCut) (p : Rpm) (π : Equiv.Perm ℕ) : Prop where
  simple : SimpleOn p.adj p.nodes
  src : ∀ n ∈ p.nodes, (p.specs n).src = π n
  map : ∀ w, p.nodeMap w = if π.symm w ∈ p.nodes then some (π.symm w) else none
  fix : ∀ n, n ∉ sp.nList.map Prod.fst → π n = n
  inputs : p.inputs = sp.inputs.toFinset
  inpMem : ∀ i ∈ p.inputs, i ∈ p.nodes
  mem : ∀ n ∈ p.nodes, n ∈ sp.nodeList
  pauliSpec : ∀ n ∈ p.nodes, (p.specs n).pauli = (cut.pauliOf (π n)).map fun m => m.clifford (p.specs n).clifford
  pauliSet : ∀ a w, w ∈ p.pauli a ↔
    ∃ n ∈ p.nodes, π n = w ∧ n ∉ p.inputs ∧ ∃ m, (p.specs n).pauli = some m ∧ m.axis = a
  dom : ∀ n ∈ p.nodes, ∀ k ∈ (p.specs n).domains.s ∪ (p.specs n).domains.t, k ∈ sp.measNodes
  domM : ∀ n ∈ p.nodes, π n ∈ sp.measNodes → (p.specs n).domains.s ∪ (p.specs n).domains.t = ∅

/-- The outputs. -/
def OutsOk (sp : StdPattern) (p : Rpm) (π : Equiv.Perm ℕ) : Prop :=
  (∀ n, n ∈ p.outputs ↔ π n ∈ sp.outputs) ∧ ∀ n ∈ p.outputs, n ∈ p.nodes

/-- `p'` is `p` after applying the Cliffords `K` to the nodes. -/
structure Applied (sp : StdPattern) (p p' : Rpm) (K : ℕ → Clifford) : Prop where
  nodes : p'.nodes = p.nodes
  adj : p'.adj = p.adj
  inputs : p'.inputs = p.inputs
  outputs : p'.outputs = p.outputs
  nodeMap : p'.nodeMap = p.nodeMap
  src : ∀ n, (p'.specs n).src = (p.specs n).src
  pauli : ∀ n, (p'.specs n).pauli = (p.specs n).pauli.map fun m => m.clifford (K n)
  op : ∀ r n, MatPhaseEq (sp.specOp r (p'.specs n)) (sp.specOp r (p.specs n) * (K n).matrix)

theorem Applied.trans {sp : StdPattern} {p p' p'' : Rpm} {K L : ℕ → Clifford} (h : Applied sp p p' K) (h' : Applied sp p' p'' L) :
    Applied sp p p'' fun n => (K n).mul (L n) := by
  refine ⟨h'.nodes.trans h.nodes, h'.adj.trans h.adj, h'.inputs.trans h.inputs, h'.outputs.trans h.outputs,
    h'.nodeMap.trans h.nodeMap, fun n => (h'.src n).trans (h.src n), fun n => ?_, fun r n => ?_⟩
  · rw [h'.pauli, h.pauli, Option.map_map]
    congr 1
    funext m
    exact m.clifford_mul _ _
  · refine (h'.op r n).trans (((h.op r n).mul (MatPhaseEq.refl _)).trans ?_)
    rw [Matrix.mul_assoc]
    exact (MatPhaseEq.refl _).mul (Clifford.mul_matrix _ _)

theorem Applied.refl (sp : StdPattern) (p : Rpm) : Applied sp p p fun _ => Clifford.I := by
  refine ⟨rfl, rfl, rfl, rfl, rfl, fun _ => rfl, fun n => ?_, fun r n => ?_⟩
  · cases (p.specs n).pauli <;> simp [PauliMeasurement.clifford_I]
  · rw [Clifford.matrix_I, Matrix.mul_one]; exact MatPhaseEq.refl _

theorem Applied.congr {sp : StdPattern} {p p' : Rpm} {K L : ℕ → Clifford} (h : Applied sp p p' K) (e : ∀ n, K n = L n) :
    Applied sp p p' L := by
  have : K = L := funext e
  exact this ▸ h

theorem Applied.val {sp : StdPattern} {p p' : Rpm} {K : ℕ → Clifford} (h : Applied sp p p' K) (hnd : p.nodes.Nodup) (r : ℕ → Bool) :
    OpPhaseEq (p'.val sp r) fun ψ => locOps (fun n => sp.specOp r (p.specs n)) p.nodes
      (locOps (fun n => (K n).matrix) p.nodes (entangleAll p.adj p.nodes ψ)) := by
  unfold Rpm.val
  rw [h.nodes, h.adj]
  obtain ⟨c, hc, e⟩ := locOps_phase (l := p.nodes) fun n _ => h.op r n
  refine ⟨c, hc, fun ψ => ?_⟩
  beta_reduce
  rw [e, locOps_mul _ _ hnd]

theorem applyClifford_ok {sp : StdPattern} {cut : PauliCut} {p : Rpm} {π : Equiv.Perm ℕ} (h : RInv sp cut p π) {n : ℕ}
    (hn : n ∈ p.nodes) (C : Clifford) :
    ∃ p', p.applyClifford n C = .ok p' ∧ RInv sp cut p' π ∧ Applied sp p p' (fun i => if i = n then C else .I) := by
  obtain ⟨d, hd, hd'⟩ := C04_commute_domains C (p.specs n).domains
  have hop : ∀ r, MatPhaseEq (sp.specOp r { p.specs n with clifford := (p.specs n).clifford.mul C, domains := d })
      (sp.specOp r (p.specs n) * C.matrix) := by
    intro r
    unfold StdPattern.specOp
    rw [Matrix.mul_assoc, Matrix.mul_assoc]
    refine (MatPhaseEq.refl _).mul ?_
    refine ((Clifford.mul_matrix _ _).symm.mul (MatPhaseEq.refl _)).trans ?_
    rw [Matrix.mul_assoc]
    exact (MatPhaseEq.refl _).mul (hd' r).symm
  have hsub := rpmDomains_sub hd
  have hop' : ∀ (x : Option PauliMeasurement) r, sp.specOp r { p.specs n with clifford := (p.specs n).clifford.mul C, domains := d, pauli := x } =
    sp.specOp r { p.specs n with clifford := (p.specs n).clifford.mul C, domains := d } := fun _ _ => rfl
  -- a common treatment of the new state
  have key : ∀ (s : NodeSpec) (q : Axis → Finset ℕ), s = { p.specs n with clifford := (p.specs n).clifford.mul C, domains := d, pauli := (p.specs n).pauli.map fun m => m.clifford C } →
      (∀ a w, w ∈ q a ↔ ∃ i ∈ p.nodes, π i = w ∧ i ∉ p.inputs ∧ ∃ m, (if i = n then s else p.specs i).pauli = some m ∧ m.axis = a) →
      RInv sp cut { (p.setSpec n s) with pauli := q } π ∧
      Applied sp p { (p.setSpec n s) with pauli := q } (fun i => if i = n then C else .I) := by
    rintro s q rfl hq
    refine ⟨⟨h.simple, ?_, h.map, h.fix, h.inputs, h.inpMem, h.mem, ?_, hq, ?_, ?_⟩, rfl, rfl, rfl, rfl, rfl, ?_, ?_, ?_⟩
    · intro i hi
      by_cases e : i = n
      · subst e; simpa [Rpm.setSpec] using h.src i hi
      · simpa [Rpm.setSpec, e] using h.src i hi
    · intro i hi
      by_cases e : i = n
      · subst e
        simp only [Rpm.setSpec, if_true]
        rw [h.pauliSpec i hi, Option.map_map]
        congr 1
        funext m
        exact m.clifford_mul _ _
      · simpa [Rpm.setSpec, e] using h.pauliSpec i hi
    · intro i hi k hk
      by_cases e : i = n
      · subst e; simp only [Rpm.setSpec, if_true] at hk; exact h.dom i hi k (hsub hk)
      · simp only [Rpm.setSpec, e, if_false] at hk; exact h.dom i hi k hk
    · intro i hi hm
      by_cases e : i = n
      · subst e
        simp only [Rpm.setSpec, if_true]
        rw [h.domM i hi hm] at hsub
        exact Finset.subset_empty.1 hsub
      · simp only [Rpm.setSpec, e, if_false]; exact h.domM i hi hm
    · intro i
      by_cases e : i = n
      · subst e; simp [Rpm.setSpec]
      · simp [Rpm.setSpec, e]
    · intro i
      by_cases e : i = n
      · subst e; simp [Rpm.setSpec]
      · simp only [Rpm.setSpec, e, if_false]
        cases (p.specs i).pauli <;> simp [PauliMeasurement.clifford_I]
    · intro r i
      by_cases e : i = n
      · subst e; simp only [Rpm.setSpec, if_true]; rw [hop']; exact hop r
      · simp only [Rpm.setSpec, e, if_false]; rw [Clifford.matrix_I, Matrix.mul_one]; exact MatPhaseEq.refl _
  unfold Rpm.applyClifford
  simp only [hd]
  cases hm : (p.specs n).pauli with
  | none =>
    simp only
    have := key { p.specs n with clifford := (p.specs n).clifford.mul C, domains := d, pauli := none } p.pauli (by rw [hm]; rfl) (by
      intro a w
      rw [h.pauliSet]
      refine exists_congr fun i => and_congr_right fun _ => and_congr_right fun _ => and_congr_right fun _ => ?_
      by_cases e : i = n
      · subst e; simp [hm]
      · simp [e])
    refine ⟨_, ?_, this⟩
    rfl
  | some m =>
    simp only [PauliMeasurement.clifford?_eq]
    have hs := h.src n hn
    by_cases hi : n ∈ p.inputs
    · have := key { p.specs n with clifford := (p.specs n).clifford.mul C, domains := d, pauli := some (m.clifford C) } p.pauli
        (by rw [hm]; simp) (by
        intro a w
        rw [h.pauliSet]
        refine exists_congr fun i => and_congr_right fun _ => and_congr_right fun _ => and_congr_right fun hi' => ?_
        have e : i ≠ n := by rintro rfl; exact hi' hi
        simp [e])
      refine ⟨_, ?_, this⟩
      simp only [Rpm.setSpec, hi, if_true]
    · have hi' : n ∉ (p.setSpec n { p.specs n with clifford := (p.specs n).clifford.mul C, domains := d, pauli := some (m.clifford C) }).inputs := hi
      rw [if_neg hi']
      by_cases hax : (m.clifford C).axis = m.axis
      · have := key { p.specs n with clifford := (p.specs n).clifford.mul C, domains := d, pauli := some (m.clifford C) } p.pauli
          (by rw [hm]; simp) (by
          intro a w
          rw [h.pauliSet]
          refine exists_congr fun i => and_congr_right fun _ => and_congr_right fun _ => and_congr_right fun hi' => ?_
          by_cases e : i = n
          · subst e; simp [hm, hax]
          · simp [e])
        refine ⟨_, ?_, this⟩
        simp only [hax, ne_eq, not_true_eq_false, if_false]
        rfl
      · rw [if_pos hax]
        have hin : (p.specs n).src ∈ p.pauli m.axis := by
          rw [h.pauliSet]; exact ⟨n, hn, hs.symm, hi, m, hm, rfl⟩
        have := key { p.specs n with clifford := (p.specs n).clifford.mul C, domains := d, pauli := some (m.clifford C) }
          (fun b => if b = (m.clifford C).axis then insert (p.specs n).src (p.pauli (m.clifford C).axis)
            else if b = m.axis then (p.pauli m.axis).erase (p.specs n).src else p.pauli b)
          (by rw [hm]; simp) (by
          intro a w
          have hmem : ∀ a w, w ∈ p.pauli a → w ≠ π n → ∃ i ∈ p.nodes, i ≠ n ∧ π i = w ∧ i ∉ p.inputs ∧ ∃ m, (p.specs i).pauli = some m ∧ m.axis = a := by
            intro a w hw hne
            obtain ⟨i, h1, h2, h3⟩ := (h.pauliSet a w).1 hw
            exact ⟨i, h1, by rintro rfl; exact hne h2.symm, h2, h3⟩
          have hmem' : ∀ a i, i ∈ p.nodes → i ≠ n → i ∉ p.inputs → (∃ m, (p.specs i).pauli = some m ∧ m.axis = a) →
              π i ∈ p.pauli a ∧ π i ≠ π n := by
            intro a i h1 h2 h3 h4
            exact ⟨(h.pauliSet a _).2 ⟨i, h1, rfl, h3, h4⟩, fun e => h2 (π.injective e)⟩
          have hself : ∀ a, π n ∈ p.pauli a → a = m.axis := by
            intro a ha
            obtain ⟨i, h1, h2, h3, m', h4, h5⟩ := (h.pauliSet a _).1 ha
            have : i = n := π.injective h2
            subst this
            rw [hm] at h4; cases h4; exact h5.symm
          rw [hs]
          constructor
          · intro hw
            by_cases ha : a = (m.clifford C).axis
            · subst ha
              rw [if_pos rfl, Finset.mem_insert] at hw
              rcases hw with rfl | hw
              · exact ⟨n, hn, rfl, hi, m.clifford C, by simp, rfl⟩
              · have hne : w ≠ π n := by rintro rfl; exact hax (hself _ hw)
                obtain ⟨i, h1, h2, h3, h4, h5⟩ := hmem _ _ hw hne
                exact ⟨i, h1, h3, h4, by simpa [h2] using h5⟩
            · rw [if_neg ha] at hw
              have : w ∈ p.pauli a ∧ w ≠ π n := by
                split_ifs at hw with ha'
                · subst ha'; rw [Finset.mem_erase] at hw; exact ⟨hw.2, hw.1⟩
                · exact ⟨hw, by rintro rfl; exact ha' (hself _ hw)⟩
              obtain ⟨i, h1, h2, h3, h4, h5⟩ := hmem _ _ this.1 this.2
              exact ⟨i, h1, h3, h4, by simpa [h2] using h5⟩
          · rintro ⟨i, h1, rfl, h3, m', h4, h5⟩
            by_cases e : i = n
            · subst e
              simp only [if_true, Option.some.injEq] at h4
              subst h4
              rw [if_pos h5.symm]; simp
            · simp only [e, if_false] at h4
              obtain ⟨h6, h7⟩ := hmem' a i h1 e h3 ⟨m', h4, h5⟩
              split_ifs with ha ha'
              · subst ha; simp [h6]
              · subst ha'; simp [h6, h7]
              · exact h6)
        refine ⟨_, ?_, this⟩
        simp only [Rpm.setSpec, Rpm.setPauli, setRemove, hin, if_true, bind, Except.bind, pure, Except.pure, hax, if_false]

end Graphix
