import Verif.Proofs.SpaceMin

/-!
# Properties C19 and C20: space-optimal patterns and space minimization
-/

namespace Graphix

open scoped symmDiff

/-! ### Peak space as a fold -/

/-- One step of the counters of `max_space`. -/
def spaceStep (s : ℤ × ℤ) : Command → ℤ × ℤ
  | .N _ _ => (s.1 + 1, max (s.1 + 1) s.2)
  | .M _ _ _ _ => (s.1 - 1, s.2)
  | _ => s

theorem maxSpaceLoop_eq_foldl (l : List Command) (a b : ℤ) :
    Pattern.maxSpaceLoop l a b = (l.foldl spaceStep (a, b)).2 := by
  induction l generalizing a b with
  | nil => rfl
  | cons c l ih => cases c <;> simp only [Pattern.maxSpaceLoop, ih, List.foldl_cons, spaceStep]

/-- The counters of `standardized_pattern_max_space` read off the pattern under construction. -/
def OptState.space (I : List ℕ) (st : OptState) : SpaceState :=
  let c := st.seq.foldl spaceStep ((I.length : ℤ), (I.length : ℤ))
  ⟨st.initialized, c.1, c.2⟩

theorem space_ensureActive {I : List ℕ} {nd : PyDict ℕ PlanarState} {st st' : OptState} {n : ℕ}
    (h : st.ensureActive nd n = .ok st') :
    st'.space I = (st.space I).activate n ∧ st'.done = st.done ∧ n ∈ st'.initialized ∧
      st.initialized ⊆ st'.initialized := by
  unfold OptState.ensureActive at h
  split at h
  · rename_i hn
    cases h
    refine ⟨?_, rfl, hn, Finset.Subset.refl _⟩
    unfold SpaceState.activate; rw [if_pos]; exact hn
  · rename_i hn
    split at h
    · cases h
    · cases h
      refine ⟨?_, rfl, Finset.mem_insert_self _ _, Finset.subset_insert _ _⟩
      unfold SpaceState.activate; rw [if_neg (by exact hn)]
      simp only [OptState.space, List.foldl_append, List.foldl_cons, List.foldl_nil, spaceStep]

theorem space_link {I : List ℕ} {nd : PyDict ℕ PlanarState} {st st' : OptState} {n v : ℕ}
    (hd : st.done ⊆ st.initialized) (h : OptState.linkNeighbor nd n st v = .ok st') :
    st'.space I = (st.space I).activate v ∧ st'.done = st.done ∧ st'.done ⊆ st'.initialized ∧
      st.initialized ⊆ st'.initialized := by
  unfold OptState.linkNeighbor at h
  split at h
  · rename_i hv
    cases h
    refine ⟨?_, rfl, hd, Finset.Subset.refl _⟩
    unfold SpaceState.activate; rw [if_pos]; exact hd hv
  · cases h1 : st.ensureActive nd v with
    | error e => rw [h1] at h; cases h
    | ok st1 =>
      rw [h1] at h; cases h
      obtain ⟨e1, e2, -, e4⟩ := space_ensureActive (I := I) h1
      refine ⟨?_, e2, ?_, e4⟩
      · rw [← e1]; simp only [OptState.space, List.foldl_append, List.foldl_cons, List.foldl_nil, spaceStep]
      · simp only [e2]; exact hd.trans e4

theorem space_links {I : List ℕ} {nd : PyDict ℕ PlanarState} {n : ℕ} (l : List ℕ) :
    ∀ {st st' : OptState}, st.done ⊆ st.initialized →
    l.foldlM (OptState.linkNeighbor nd n) st = .ok st' →
    st'.space I = l.foldl SpaceState.activate (st.space I) ∧ st'.done = st.done ∧
      st'.done ⊆ st'.initialized ∧ st.initialized ⊆ st'.initialized := by
  induction l with
  | nil => intro st st' hd h; cases h; exact ⟨rfl, rfl, hd, Finset.Subset.refl _⟩
  | cons v l ih =>
    intro st st' hd h
    rw [List.foldlM_cons] at h
    cases h1 : OptState.linkNeighbor nd n st v with
    | error e => rw [h1] at h; cases h
    | ok st1 =>
      rw [h1] at h
      obtain ⟨e1, e2, e3, e4⟩ := space_link (I := I) hd h1
      obtain ⟨f1, f2, f3, f4⟩ := ih e3 h
      exact ⟨by rw [f1, e1]; rfl, f2.trans e2, f3, e4.trans f4⟩

theorem space_neighborhood {I : List ℕ} {nd : PyDict ℕ PlanarState} {nbr : ℕ → List ℕ} {n : ℕ}
    {st st' : OptState} (hd : st.done ⊆ st.initialized)
    (h : st.ensureNeighborhood nd nbr n = .ok st') :
    st'.space I = (st.space I).activateNeighborhood nbr n ∧ st'.done = st.done ∧
      st'.done ⊆ st'.initialized ∧ n ∈ st'.initialized := by
  unfold OptState.ensureNeighborhood at h
  cases h1 : st.ensureActive nd n with
  | error e => rw [h1] at h; cases h
  | ok st1 =>
    rw [h1] at h
    obtain ⟨e1, e2, e3, e4⟩ := space_ensureActive (I := I) h1
    obtain ⟨f1, f2, f3, f4⟩ := space_links (I := I) (nbr n) (st := st1) (by rw [e2]; exact hd.trans e4) h
    exact ⟨by rw [f1, e1]; rfl, f2.trans e2, f3, f4 e3⟩

theorem space_measures {sp : StdPattern} {nbr : ℕ → List ℕ} {I : List ℕ} (l : List MCmd) :
    ∀ {st st' : OptState}, st.done ⊆ st.initialized → l.foldlM (sp.optMeasure nbr) st = .ok st' →
    st'.space I = l.foldl (fun st m =>
      let st := st.activateNeighborhood nbr m.node
      { st with numActive := st.numActive - 1 }) (st.space I) ∧ st'.done ⊆ st'.initialized := by
  induction l with
  | nil => intro st st' hd h; cases h; exact ⟨rfl, hd⟩
  | cons m l ih =>
    intro st st' hd h
    rw [List.foldlM_cons] at h
    unfold StdPattern.optMeasure at h
    cases h1 : st.ensureNeighborhood sp.nDict nbr m.node with
    | error e => rw [h1] at h; cases h
    | ok st1 =>
      rw [h1] at h
      obtain ⟨e1, e2, e3, e4⟩ := space_neighborhood (I := I) hd h1
      obtain ⟨f1, f2⟩ := ih (st := { st1 with seq := st1.seq ++ [m.toCmd], done := insert m.node st1.done })
        (Finset.insert_subset e4 e3) h
      refine ⟨?_, f2⟩
      rw [f1, List.foldl_cons, ← e1]
      simp only [OptState.space, List.foldl_append, List.foldl_cons, List.foldl_nil]
      congr 1

theorem spaceStep_local {l : List Command} {n : ℕ}
    (h : ∀ c ∈ l, c.local? = some n ∧ c.measured? = none) (s : ℤ × ℤ) : l.foldl spaceStep s = s := by
  induction l with
  | nil => rfl
  | cons c l ih =>
    have hc := h c (by simp)
    rw [List.foldl_cons]
    have : spaceStep s c = s := by
      cases c <;> simp_all [Command.local?, Command.measured?, spaceStep]
    rw [this]; exact ih (fun c hc => h c (by simp [hc]))

theorem space_outputs {sp : StdPattern} {nbr : ℕ → List ℕ} {I : List ℕ} (l : List ℕ) :
    ∀ {st st' : OptState}, st.done ⊆ st.initialized → l.foldlM (sp.optOutput nbr) st = .ok st' →
    st'.space I = l.foldl (fun st n => st.activateNeighborhood nbr n) (st.space I) := by
  induction l with
  | nil => intro st st' hd h; cases h; rfl
  | cons n l ih =>
    intro st st' hd h
    rw [List.foldlM_cons] at h
    unfold StdPattern.optOutput at h
    cases h1 : st.ensureNeighborhood sp.nDict nbr n with
    | error e => rw [h1] at h; cases h
    | ok st1 =>
      rw [h1] at h
      obtain ⟨e1, e2, e3, e4⟩ := space_neighborhood (I := I) hd h1
      have f1 := ih (st := { st1 with seq := st1.seq ++ sp.optCorrections n, done := insert n st1.done })
        (Finset.insert_subset e4 e3) h
      rw [f1, List.foldl_cons, ← e1]
      simp only [OptState.space, List.foldl_append, spaceStep_local (optCorrections_local sp n)]

theorem optSeq_space {sp : StdPattern} {nbr : ℕ → List ℕ} {st : OptState} (h : sp.optSeq nbr = .ok st) :
    Pattern.maxSpaceLoop st.seq sp.inputs.length sp.inputs.length = sp.maxSpace nbr := by
  unfold StdPattern.optSeq at h
  cases h1 : sp.mList.foldlM (sp.optMeasure nbr) ⟨[], sp.inputs.toFinset, ∅⟩ with
  | error e => rw [h1] at h; cases h
  | ok st1 =>
    rw [h1] at h
    obtain ⟨e1, e2⟩ := space_measures (I := sp.inputs) sp.mList (by simp) h1
    have f1 := space_outputs (I := sp.inputs) sp.outputs e2 h
    rw [maxSpaceLoop_eq_foldl]
    change (st.space sp.inputs).maxActive = _
    rw [f1, e1]; rfl

/-! ### C19: correctness of the space-optimal pattern -/

theorem toSpaceOptimal_ok {sp : StdPattern} {nbr : ℕ → List ℕ} {q : Pattern}
    (h : sp.toSpaceOptimalPattern nbr = .ok q) :
    ∃ st, sp.optSeq nbr = .ok st ∧ q.seq = st.seq ∧ q.inputs = sp.inputs ∧ q.outputs = sp.outputs := by
  unfold StdPattern.toSpaceOptimalPattern at h
  cases h1 : sp.optSeq nbr with
  | error e => rw [h1] at h; cases h
  | ok st =>
    rw [h1] at h
    change ((Pattern.empty sp.inputs).extend st.seq).reorderOutputNodes sp.outputs = _ at h
    unfold Pattern.reorderOutputNodes at h
    cases ha : assertPermutation ((Pattern.empty sp.inputs).extend st.seq).outputs sp.outputs with
    | error e => rw [ha] at h; cases h
    | ok u =>
      rw [ha] at h; cases h
      have := C08_count sp.inputs st.seq
      exact ⟨st, rfl, this.1, this.2.1, rfl⟩

/-- **C19** On every well-formed standardized pattern (in particular on every result of
`StandardizedPattern.from_pattern`, `fromPattern_wf`), `to_space_optimal_pattern` succeeds. -/
theorem C19_succeeds (sp : StdPattern) (hw : sp.WF) (nbr : ℕ → List ℕ) (hb : NbrOk sp.eSet nbr) :
    ∃ q, sp.toSpaceOptimalPattern nbr = .ok q := by
  obtain ⟨st, h, i, hm, hi, -⟩ := optSeq_inv hw hb
  unfold StdPattern.toSpaceOptimalPattern
  rw [h]
  change ∃ q, ((Pattern.empty sp.inputs).extend st.seq).reorderOutputNodes sp.outputs = .ok q
  unfold Pattern.reorderOutputNodes
  have hin : sp.inputs.Nodup := (List.nodup_append.1 hw.nodes_nodup).1
  have : assertPermutation ((Pattern.empty sp.inputs).extend st.seq).outputs sp.outputs = .ok () := by
    rw [assertPermutation_ok_iff]
    refine ⟨?_, hw.out_nodup⟩
    rw [C08_outputs _ hin _ i.run]
    ext n
    simp only [List.mem_toFinset, List.mem_filter, decide_eq_true_eq]
    rw [hw.out n, hm, ← List.mem_toFinset (l := introduced _ _), i.intro, hi, List.mem_toFinset]
  rw [this]
  exact ⟨_, rfl⟩

/-- **C19** `to_space_optimal_pattern` returns a runnable pattern with the same inputs and outputs,
the same measurement order, the same nodes, which does in every branch `r` exactly what the standard
form does (whatever the enumeration of the edges and of the neighbourhoods), and whose `max_space` is
`StandardizedPattern.max_space`. -/
theorem C19_to_space_optimal (sp : StdPattern) (hw : sp.WF) (nbr : ℕ → List ℕ)
    (hb : NbrOk sp.eSet nbr) (q : Pattern) (h : sp.toSpaceOptimalPattern nbr = .ok q) :
    q.checkRunnability = .ok () ∧ q.inputs = sp.inputs ∧ q.outputs = sp.outputs ∧
    measuredIn q.seq = sp.mList.map MCmd.node ∧
    (∀ n, n ∈ introduced q.inputs q.seq ↔ n ∈ sp.inputs ∨ n ∈ sp.nList.map Prod.fst) ∧
    (∀ edges, StdPattern.Enumerates edges sp.eSet → ∀ r ψ,
      semCmds r q.seq ψ = semCmds r (sp.cmds edges) ψ) ∧
    q.maxSpace = sp.maxSpace nbr := by
  obtain ⟨st, h1, e1, e2, e3⟩ := toSpaceOptimal_ok h
  obtain ⟨st', h1', i, hm, hi, hl⟩ := optSeq_inv hw hb
  rw [h1] at h1'; cases h1'
  refine ⟨?_, e2, e3, by rw [e1, hm]; rfl, ?_, ?_, ?_⟩
  · rw [checkRunnability_iff, e1, e2]; exact i.run
  · intro n
    rw [e1, e2, ← List.mem_toFinset, i.intro, hi, List.mem_toFinset, StdPattern.nodeList,
      List.mem_append]
  · intro edges hen r ψ
    rw [e1, i.sem r ψ, hl, semCmds_cmds sp edges hen, semCmds_append, semCmds_outputs]
    unfold StdBody.sem
    rw [corrOp_fold r sp.outputs hw.out_nodup hw.nc hw.nx hw.nz hw.lc hw.lx hw.lz,
      semCmds_nList hw, hi]
  · unfold Pattern.maxSpace; rw [e1, e2]; exact optSeq_space h1

/-- **C19** From a user's pattern: standardizing and then asking for the space-optimal pattern
preserves the computation in every branch. -/
theorem C19_from_pattern (p : Pattern) (hp : p.OutputsOk) (hE : NoSelfLoop p.seq) (sp : StdPattern)
    (h : StdPattern.fromPattern p = .ok sp) (nbr : ℕ → List ℕ) (hb : NbrOk sp.eSet nbr) (q : Pattern)
    (hq : sp.toSpaceOptimalPattern nbr = .ok q) (r : ℕ → Bool) :
    OpPhaseEq (semCmds r p.seq) (semCmds r q.seq) ∧ q.inputs = p.inputs ∧ q.outputs = p.outputs ∧
      measuredIn q.seq = measuredIn p.seq := by
  have hw := fromPattern_wf hp hE h
  have hinv := fromPattern_inv hE h
  obtain ⟨-, -, e1, e2⟩ := fromPattern_ok h
  obtain ⟨-, i1, i2, i3, -, i5, -⟩ := C19_to_space_optimal sp hw nbr hb q hq
  obtain ⟨edges, hen⟩ := enumerates_exists sp.eSet
  refine ⟨?_, by rw [i1, e1], by rw [i2, e2], by rw [i3, hinv.ml]⟩
  refine (hinv.sem r).trans (OpPhaseEq.of_eq (fun ψ => ?_))
  rw [i5 edges hen r ψ, semCmds_cmds sp edges hen]

/-! ### C19: optimality -/

/-- The nodes that must be present before the nodes of `a` are all measured: the inputs, `a` and
their neighbours. -/
def needed (I : List ℕ) (E : Finset (Sym2 ℕ)) (a : List ℕ) : Set ℕ :=
  {n | n ∈ I ∨ n ∈ a ∨ ∃ k ∈ a, s(k, n) ∈ E}

theorem activate_spec (st : SpaceState) (n : ℕ) :
    (st.activate n).initialized = insert n st.initialized ∧
    (st.activate n).numActive = st.numActive + ((insert n st.initialized).card - st.initialized.card : ℤ) ∧
    (st.activate n).maxActive ≤ max st.maxActive (st.activate n).numActive ∧
    st.numActive ≤ (st.activate n).numActive := by
  unfold SpaceState.activate
  split
  · rename_i h
    rw [Finset.insert_eq_of_mem h]; simp
  · rename_i h
    rw [Finset.card_insert_of_notMem h]
    refine ⟨rfl, ?_, ?_, ?_⟩ <;> simp [max_comm]

theorem activates_spec (l : List ℕ) : ∀ (st : SpaceState),
    (l.foldl SpaceState.activate st).initialized = st.initialized ∪ l.toFinset ∧
    (l.foldl SpaceState.activate st).numActive =
      st.numActive + ((st.initialized ∪ l.toFinset).card - st.initialized.card : ℤ) ∧
    (l.foldl SpaceState.activate st).maxActive ≤
      max st.maxActive (l.foldl SpaceState.activate st).numActive ∧
    st.numActive ≤ (l.foldl SpaceState.activate st).numActive := by
  induction l with
  | nil => intro st; simp
  | cons n l ih =>
    intro st
    obtain ⟨a1, a2, a3, a4⟩ := activate_spec st n
    obtain ⟨b1, b2, b3, b4⟩ := ih (st.activate n)
    simp only [List.foldl_cons, List.toFinset_cons]
    have e : (st.activate n).initialized ∪ l.toFinset = st.initialized ∪ insert n l.toFinset := by
      rw [a1]; ext; simp
    refine ⟨by rw [b1, e], ?_, ?_, le_trans a4 b4⟩
    · rw [b2, e, a2, a1]; ring
    · refine le_trans b3 (max_le (le_trans a3 (max_le (le_max_left _ _) ?_)) (le_max_right _ _))
      exact le_trans b4 (le_max_right _ _)

theorem activateNeighborhood_spec (nbr : ℕ → List ℕ) (st : SpaceState) (n : ℕ) :
    (st.activateNeighborhood nbr n).initialized = insert n st.initialized ∪ (nbr n).toFinset ∧
    (st.activateNeighborhood nbr n).numActive = st.numActive +
      ((insert n st.initialized ∪ (nbr n).toFinset).card - st.initialized.card : ℤ) ∧
    (st.activateNeighborhood nbr n).maxActive ≤
      max st.maxActive (st.activateNeighborhood nbr n).numActive := by
  have := activates_spec (n :: nbr n) st
  simp only [List.foldl_cons, List.toFinset_cons] at this
  have e : insert n st.initialized ∪ (nbr n).toFinset = st.initialized ∪ insert n (nbr n).toFinset := by
    ext; simp
  rw [e]
  exact ⟨this.1, this.2.1, this.2.2.1⟩

/-- Everything `maxSpace` counts is forced: a number that bounds the inputs, the needed nodes before
each measurement, and the unmeasured nodes, bounds `maxSpace`. -/
theorem maxSpace_le {sp : StdPattern} (hw : sp.WF) {nbr : ℕ → List ℕ} (hb : NbrOk sp.eSet nbr) (B : ℤ)
    (h0 : (sp.inputs.length : ℤ) ≤ B)
    (h1 : ∀ (a c : List ℕ) (m : ℕ), sp.measNodes = a ++ m :: c → ∀ S : Finset ℕ,
      (↑S ⊆ needed sp.inputs sp.eSet (a ++ [m])) → (S.card : ℤ) - a.length ≤ B)
    (h2 : (sp.nodeList.length : ℤ) - sp.measNodes.length ≤ B) : sp.maxSpace nbr ≤ B := by
  have meas : ∀ (l : List MCmd) (a : List ℕ) (st : SpaceState), sp.measNodes = a ++ l.map MCmd.node →
      (↑st.initialized ⊆ needed sp.inputs sp.eSet a) → st.numActive = st.initialized.card - a.length →
      st.maxActive ≤ B →
      let st' := l.foldl (fun st m =>
        let st := st.activateNeighborhood nbr m.node
        { st with numActive := st.numActive - 1 }) st
      (↑st'.initialized ⊆ needed sp.inputs sp.eSet sp.measNodes) ∧
      st'.numActive = st'.initialized.card - sp.measNodes.length ∧ st'.maxActive ≤ B := by
    intro l
    induction l with
    | nil =>
      intro a st ha i1 i2 i3
      simp only [List.map_nil, List.append_nil] at ha
      subst ha
      exact ⟨i1, i2, i3⟩
    | cons m l ih =>
      intro a st ha i1 i2 i3
      obtain ⟨s1, s2, s3⟩ := activateNeighborhood_spec nbr st m.node
      rw [List.foldl_cons]
      have hsub : (↑(st.activateNeighborhood nbr m.node).initialized : Set ℕ) ⊆
          needed sp.inputs sp.eSet (a ++ [m.node]) := by
        rw [s1]
        intro x hx
        simp only [Finset.coe_union, Finset.coe_insert, Set.mem_union, Set.mem_insert_iff,
          Finset.mem_coe, List.mem_toFinset] at hx
        rcases hx with (rfl | hx) | hx
        · right; left; simp
        · rcases i1 hx with h | h | ⟨k, hk, h⟩
          · exact Or.inl h
          · right; left; simp [h]
          · right; right; exact ⟨k, by simp [hk], h⟩
        · right; right; exact ⟨m.node, by simp, ((hb _).2 x).1 hx⟩
      have hnum : (st.activateNeighborhood nbr m.node).numActive =
          (st.activateNeighborhood nbr m.node).initialized.card - a.length := by
        rw [s2, i2, s1]; ring
      refine ih (a ++ [m.node]) _ (by rw [ha]; simp) hsub ?_ ?_
      · simp only [List.length_append, List.length_singleton]; rw [hnum]; push_cast; ring
      · refine le_trans s3 (max_le i3 ?_)
        rw [hnum]
        exact h1 a (l.map MCmd.node) m.node (by rw [ha]; simp) _ hsub
  have outs : ∀ (l : List ℕ) (st : SpaceState), (∀ n ∈ l, n ∈ sp.nodeList) →
      (∀ n ∈ st.initialized, n ∈ sp.nodeList) →
      st.numActive = st.initialized.card - sp.measNodes.length → st.maxActive ≤ B →
      (l.foldl (fun st n => st.activateNeighborhood nbr n) st).maxActive ≤ B := by
    intro l
    induction l with
    | nil => intro st _ _ _ h; exact h
    | cons n l ih =>
      intro st hl i1 i2 i3
      obtain ⟨s1, s2, s3⟩ := activateNeighborhood_spec nbr st n
      have hsub : ∀ k ∈ (st.activateNeighborhood nbr n).initialized, k ∈ sp.nodeList := by
        rw [s1]
        intro x hx
        simp only [Finset.mem_union, Finset.mem_insert, List.mem_toFinset] at hx
        rcases hx with (rfl | hx) | hx
        · exact hl _ (by simp)
        · exact i1 x hx
        · exact hw.edge _ (((hb n).2 x).1 hx) x (Sym2.mem_mk_right _ _)
      have hnum : (st.activateNeighborhood nbr n).numActive =
          (st.activateNeighborhood nbr n).initialized.card - sp.measNodes.length := by
        rw [s2, i2, s1]; ring
      rw [List.foldl_cons]
      refine ih _ (fun n hn => hl n (by simp [hn])) hsub hnum (le_trans s3 (max_le i3 ?_))
      rw [hnum]
      have : (st.activateNeighborhood nbr n).initialized.card ≤ sp.nodeList.length := by
        rw [← List.toFinset_card_of_nodup hw.nodes_nodup]
        exact Finset.card_le_card (fun x hx => List.mem_toFinset.2 (hsub x hx))
      omega
  unfold StdPattern.maxSpace
  have hin : sp.inputs.Nodup := (List.nodup_append.1 hw.nodes_nodup).1
  obtain ⟨m1, m2, m3⟩ := meas sp.mList [] ⟨sp.inputs.toFinset, sp.inputs.length, sp.inputs.length⟩ rfl
    (by intro x hx; left; simpa using hx) (by simp [List.toFinset_card_of_nodup hin]) h0
  refine outs sp.outputs _ (fun n hn => ((hw.out n).1 hn).1) ?_ m2 m3
  intro n hn
  rcases m1 hn with h | h | ⟨k, hk, h⟩
  · unfold StdPattern.nodeList; simp [h]
  · exact hw.m_sub n h
  · exact hw.edge _ h n (Sym2.mem_mk_right _ _)

/-- A competing pattern: same inputs, runnable, measuring the nodes in the order `ms`, introducing
(at least) all the nodes `nodes` and applying (at least) all the edges `E`. -/
structure Competitor (p : Pattern) (I nodes : List ℕ) (E : Finset (Sym2 ℕ)) (ms : List ℕ) : Prop where
  inputs : p.inputs = I
  run : Runnable p.inputs p.seq
  meas : measuredIn p.seq = ms
  nodes : ∀ n ∈ nodes, n ∈ introduced p.inputs p.seq
  edges : ∀ e ∈ E, e ∈ p.seq.filterMap Command.edge?

theorem cut_at_measure {l : List Command} {a c : List ℕ} {m : ℕ} (h : measuredIn l = a ++ m :: c) :
    ∃ pre meas s t post, l = pre ++ .M m meas s t :: post ∧ measuredIn pre = a ∧ measuredIn post = c := by
  induction l generalizing a with
  | nil => simp [measuredIn] at h
  | cons x l ih =>
    have skip : x.measured? = none → ∃ pre meas s t post, x :: l = pre ++ .M m meas s t :: post ∧
        measuredIn pre = a ∧ measuredIn post = c := by
      intro hx
      have : measuredIn l = a ++ m :: c := by
        rw [← h]; simp [measuredIn, List.filterMap_cons, hx]
      obtain ⟨pre, meas, s, t, post, h1, h2, h3⟩ := ih this
      exact ⟨x :: pre, meas, s, t, post, by rw [h1]; rfl,
        by rw [← h2]; simp [measuredIn, List.filterMap_cons, hx], h3⟩
    cases x with
    | M n meas s t =>
      have h' : n :: measuredIn l = a ++ m :: c := by rw [← h]; rfl
      cases a with
      | nil =>
        simp only [List.nil_append, List.cons.injEq] at h'
        obtain ⟨rfl, h'⟩ := h'
        exact ⟨[], meas, s, t, l, rfl, rfl, h'⟩
      | cons a0 a =>
        simp only [List.cons_append, List.cons.injEq] at h'
        obtain ⟨rfl, h'⟩ := h'
        obtain ⟨pre, meas', s', t', post, h1, h2, h3⟩ := ih h'
        exact ⟨.M n meas s t :: pre, meas', s', t', post, by rw [h1]; rfl,
          by rw [← h2]; rfl, h3⟩
    | _ => exact skip rfl

/-- Before measuring the last node of `a ++ [m]`, a competitor has introduced all needed nodes. -/
theorem Competitor.needed_introduced {p : Pattern} {I nodes : List ℕ} {E : Finset (Sym2 ℕ)}
    {ms : List ℕ} (hc : Competitor p I nodes E ms) {pre post : List Command} {m : ℕ}
    {meas : Measurement} {s t : Finset ℕ} (h : p.seq = pre ++ .M m meas s t :: post) :
    ∀ n ∈ needed I E (measuredIn pre ++ [m]), n ∈ introduced I pre := by
  have hr := hc.run
  rw [h, hc.inputs] at hr
  have hm := hr pre _ post rfl
  have hsub := hr.prefix.measured_sub
  rintro n (hn | hn | ⟨k, hk, hn⟩)
  · exact List.mem_append_left _ hn
  · rcases List.mem_append.1 hn with hn | hn
    · exact hsub n hn
    · rw [List.mem_singleton] at hn; rw [hn]; exact hm.1.1
  · obtain ⟨c, hcm, hce⟩ := List.mem_filterMap.1 (hc.edges _ hn)
    cases c <;> simp only [Command.edge?, reduceCtorEq, Option.some.injEq] at hce
    rename_i u v
    obtain ⟨x, y, hxy⟩ := List.append_of_mem hcm
    have hal := hr x _ y (by rw [← h]; exact hxy)
    -- the edge is not after the measurement of `k`
    have hin : ∀ w, (w = u ∨ w = v) → Live I x w := by
      rintro w (rfl | rfl)
      · exact hal.1
      · exact hal.2
    rw [Sym2.eq_iff] at hce
    have hkx : Live I x k := hin k (by rcases hce with ⟨h1, h2⟩ | ⟨h1, h2⟩ <;> simp [h1, h2])
    have hnx : Live I x n := hin n (by rcases hce with ⟨h1, h2⟩ | ⟨h1, h2⟩ <;> simp [h1, h2])
    -- compare the two cuts
    rw [h] at hxy
    rcases List.append_eq_append_iff.1 hxy with ⟨d, hd1, hd2⟩ | ⟨d, hd1, hd2⟩
    · -- x = pre ++ d
      cases d with
      | nil => simp at hd2
      | cons d0 d =>
        simp only [List.cons_append, List.cons.injEq] at hd2
        obtain ⟨rfl, -⟩ := hd2
        exfalso
        apply hkx.2
        rw [hd1, measuredIn_append]
        simp only [List.mem_append, List.mem_singleton] at hk
        rcases hk with hk | rfl
        · exact List.mem_append_left _ hk
        · exact List.mem_append_right _ (by simp [Command.measured?])
    · rw [hd1, introduced_append]
      exact List.mem_append_left _ hnx.1

theorem introduced_length (I : List ℕ) (pre : List Command) :
    (introduced I pre).length = I.length + (pre.filterMap Command.prepared?).length := by
  simp [introduced]

/-- **C19** Optimality: `max_space` of the standardized pattern (hence of its space-optimal pattern) is
at most that of *any* runnable pattern on the same inputs that measures the same nodes in the same
order, introduces its nodes and applies its edges, however it interleaves `N`, `E` and corrections. -/
theorem C19_optimal (sp : StdPattern) (hw : sp.WF) (nbr : ℕ → List ℕ) (hb : NbrOk sp.eSet nbr)
    (p : Pattern)
    (hc : Competitor p sp.inputs (sp.inputs ++ sp.nList.map Prod.fst) sp.eSet (sp.mList.map MCmd.node)) :
    sp.maxSpace nbr ≤ p.maxSpace := by
  have hin : sp.inputs.Nodup := (List.nodup_append.1 hw.nodes_nodup).1
  have hsp := (C18_max_space p).1
  have hp := hc.inputs
  refine maxSpace_le hw hb _ ?_ ?_ ?_
  · have := hsp [] p.seq rfl
    simpa [liveCount, measuredIn, hp] using this
  · intro a c m hm S hS
    obtain ⟨pre, meas, s, t, post, h1, h2, -⟩ := cut_at_measure (hc.meas.trans hm)
    have hlive := hsp pre _ h1
    have hni := hc.needed_introduced h1
    rw [h2] at hni
    have hr : Runnable sp.inputs pre := by
      have := hc.run; rw [h1, hp] at this; exact this.prefix
    have hnd := hr.introduced_nodup hin
    have hcard : S.card ≤ (introduced sp.inputs pre).length := by
      rw [← List.toFinset_card_of_nodup hnd]
      exact Finset.card_le_card (fun x hx => List.mem_toFinset.2 (hni x (hS hx)))
    rw [introduced_length] at hcard
    unfold liveCount at hlive
    rw [hp, h2] at hlive
    omega
  · have hlive := hsp p.seq [] (by simp)
    have hr : Runnable sp.inputs p.seq := by rw [← hp]; exact hc.run
    have hnd := hr.introduced_nodup hin
    have hcard : sp.nodeList.length ≤ (introduced sp.inputs p.seq).length := by
      rw [← List.toFinset_card_of_nodup hnd, ← List.toFinset_card_of_nodup hw.nodes_nodup]
      refine Finset.card_le_card (fun x hx => ?_)
      have := hc.nodes x (List.mem_toFinset.1 hx)
      rw [hp] at this; exact List.mem_toFinset.2 this
    rw [introduced_length] at hcard
    unfold liveCount at hlive
    rw [hp, hc.meas] at hlive
    have : sp.measNodes.length = (sp.mList.map MCmd.node).length := rfl
    omega

/-- The space-optimal pattern is itself a competitor: the bound is attained. -/
theorem spaceOptimal_competitor (sp : StdPattern) (hw : sp.WF) (nbr : ℕ → List ℕ)
    (hb : NbrOk sp.eSet nbr) (q : Pattern) (h : sp.toSpaceOptimalPattern nbr = .ok q) :
    Competitor q sp.inputs (sp.inputs ++ sp.nList.map Prod.fst) sp.eSet (sp.mList.map MCmd.node) := by
  obtain ⟨st, h1, e1, e2, e3⟩ := toSpaceOptimal_ok h
  obtain ⟨st', h1', i, hm, hi, hl⟩ := optSeq_inv hw hb
  rw [h1] at h1'; cases h1'
  refine ⟨e2, by rw [e1, e2]; exact i.run, by rw [e1, hm]; rfl, ?_, ?_⟩
  · intro n hn
    rw [e1, e2, ← List.mem_toFinset, i.intro, hi, List.mem_toFinset]; exact hn
  · intro e he; rw [e1]; exact (i.edges e).2 he

/-- **C19** `max_space` does not depend on the order in which neighbourhoods are enumerated. -/
theorem C19_max_space_nbr (sp : StdPattern) (hw : sp.WF) (nbr nbr' : ℕ → List ℕ)
    (hb : NbrOk sp.eSet nbr) (hb' : NbrOk sp.eSet nbr') : sp.maxSpace nbr = sp.maxSpace nbr' := by
  have key : ∀ nbr nbr', NbrOk sp.eSet nbr → NbrOk sp.eSet nbr' → sp.maxSpace nbr ≤ sp.maxSpace nbr' := by
    intro nbr nbr' hb hb'
    obtain ⟨q, hq⟩ := C19_succeeds sp hw nbr' hb'
    rw [← (C19_to_space_optimal sp hw nbr' hb' q hq).2.2.2.2.2.2]
    exact C19_optimal sp hw nbr hb q (spaceOptimal_competitor sp hw nbr' hb' q hq)
  exact le_antisymm (key _ _ hb hb') (key _ _ hb' hb)

theorem step_eSet {b b' : StdBody} {c : Command} (h : b.step c = .ok b') :
    ∀ e ∈ b'.eSet, e ∈ b.eSet ∨ c.edge? = some e := by
  cases c with
  | N n st => cases h; intro e he; exact Or.inl he
  | E u v =>
    change (b.edgeSide u v >>= fun b1 => b1.edgeSide v u >>= fun b2 =>
          pure { b2 with eSet := b2.eSet ∆ {s(u, v)} }) = _ at h
    cases h1 : b.edgeSide u v with
    | error e => rw [h1] at h; cases h
    | ok b1 =>
      rw [h1] at h
      change (b1.edgeSide v u >>= _) = _ at h
      cases h2 : b1.edgeSide v u with
      | error e => rw [h2] at h; cases h
      | ok b2 =>
        rw [h2] at h; cases h
        obtain ⟨_, -, e1⟩ := edgeSide_ok h1
        obtain ⟨_, -, e2⟩ := edgeSide_ok h2
        intro e he
        simp only [Finset.mem_symmDiff, Finset.mem_singleton] at he
        rcases he with ⟨he, -⟩ | ⟨rfl, -⟩
        · left; rw [e2, e1] at he; exact he
        · right; rfl
  | M n m s t =>
    obtain ⟨_, -, _, -, e⟩ := measureCase_ok h
    intro x hx; rw [e] at hx; exact Or.inl hx
  | X n d =>
    obtain ⟨_, -, e⟩ := correctionCase_ok h
    intro x hx; rw [e] at hx; exact Or.inl hx
  | Z n d =>
    obtain ⟨_, -, e⟩ := correctionCase_ok h
    intro x hx; rw [e] at hx; exact Or.inl hx
  | C n g => cases h; intro e he; exact Or.inl he
  | S n d => cases h; intro e he; exact Or.inl he
  | T => cases h; intro e he; exact Or.inl he

theorem run_eSet (l : List Command) : ∀ {b b' : StdBody}, b.run l = .ok b' →
    ∀ e ∈ b'.eSet, e ∈ b.eSet ∨ e ∈ l.filterMap Command.edge? := by
  induction l with
  | nil => intro b b' h e he; cases h; exact Or.inl he
  | cons c l ih =>
    intro b b' h e he
    change (b.step c >>= fun b => b.run l) = _ at h
    cases h1 : b.step c with
    | error e => rw [h1] at h; cases h
    | ok b1 =>
      rw [h1] at h
      rcases ih h e he with h2 | h2
      · rcases step_eSet h1 e h2 with h3 | h3
        · exact Or.inl h3
        · right; exact List.mem_filterMap.2 ⟨c, by simp, h3⟩
      · right
        obtain ⟨x, hx, hxe⟩ := List.mem_filterMap.1 h2
        exact List.mem_filterMap.2 ⟨x, by simp [hx], hxe⟩

theorem fromPattern_competitor (p : Pattern) (hE : NoSelfLoop p.seq) (sp : StdPattern)
    (h : StdPattern.fromPattern p = .ok sp) :
    Competitor p sp.inputs (sp.inputs ++ sp.nList.map Prod.fst) sp.eSet (sp.mList.map MCmd.node) := by
  have hinv := fromPattern_inv hE h
  obtain ⟨hR, hrun, e1, e2⟩ := fromPattern_ok h
  refine ⟨e1.symm, hR, hinv.ml.symm, ?_, ?_⟩
  · intro n hn; rw [e1, hinv.nl] at hn; exact hn
  · intro e he
    rcases run_eSet p.seq hrun e he with h' | h'
    · simp [StdBody.init] at h'
    · exact h'

/-- **C19** Corollary: going through `to_space_optimal_pattern` never increases `max_space`. -/
theorem C19_never_worse (p : Pattern) (hp : p.OutputsOk) (hE : NoSelfLoop p.seq) (sp : StdPattern)
    (h : StdPattern.fromPattern p = .ok sp) (nbr : ℕ → List ℕ) (hb : NbrOk sp.eSet nbr) (q : Pattern)
    (hq : sp.toSpaceOptimalPattern nbr = .ok q) : q.maxSpace ≤ p.maxSpace := by
  have hw := fromPattern_wf hp hE h
  rw [(C19_to_space_optimal sp hw nbr hb q hq).2.2.2.2.2.2]
  exact C19_optimal sp hw nbr hb p (fromPattern_competitor p hE sp h)

/-! ### C20: reordering the measurements -/

/-- A measurement order of the pattern: every measured node once, each after the measurements its
domains refer to. -/
def ValidOrder (sp : StdPattern) (order : List ℕ) : Prop :=
  order.Perm (sp.mList.map MCmd.node) ∧
  ∀ a n c, order = a ++ n :: c → ∀ m ∈ sp.mList, m.node = n →
    (∀ k ∈ m.sDomain, k ∈ a) ∧ (∀ k ∈ m.tDomain, k ∈ a)

theorem mDict_get {sp : StdPattern} (h : (sp.mList.map MCmd.node).Nodup) :
    (∀ m ∈ sp.mList, PyDict.get? sp.mDict m.node = some m) ∧
    ∀ n, n ∉ sp.mList.map MCmd.node → PyDict.get? sp.mDict n = none := by
  unfold StdPattern.mDict
  have key : ∀ (l : List MCmd) (d : PyDict ℕ MCmd), (l.map MCmd.node).Nodup →
      (∀ m ∈ l, PyDict.get? (l.foldl (fun d m => PyDict.set d m.node m) d) m.node = some m) ∧
      (∀ k, k ∉ l.map MCmd.node →
        PyDict.get? (l.foldl (fun d m => PyDict.set d m.node m) d) k = PyDict.get? d k) := by
    intro l
    induction l with
    | nil => intro d _; exact ⟨by simp, fun _ _ => rfl⟩
    | cons a l ih =>
      intro d hd
      simp only [List.map_cons, List.nodup_cons] at hd
      obtain ⟨h1, h2⟩ := ih (PyDict.set d a.node a) hd.2
      refine ⟨?_, ?_⟩
      · intro n hn
        rcases List.mem_cons.1 hn with rfl | hn
        · simp only [List.foldl_cons]
          rw [h2 _ hd.1, PyDict.get?_set]; simp
        · exact h1 n hn
      · intro k hk
        simp only [List.map_cons, List.mem_cons, not_or] at hk
        simp only [List.foldl_cons]
        rw [h2 k hk.2, PyDict.get?_set, if_neg (Ne.symm hk.1)]
  obtain ⟨h1, h2⟩ := key sp.mList [] h
  exact ⟨h1, fun n hn => by rw [h2 n hn]; rfl⟩

theorem mapM_except_ok {α β : Type} {f : α → Except PyErr β} (l : List α) :
    ∀ {r : List β}, l.mapM f = .ok r → List.Forall₂ (fun a b => f a = .ok b) l r := by
  induction l with
  | nil => intro r h; rw [List.mapM_nil] at h; cases h; exact .nil
  | cons a l ih =>
    intro r h
    rw [List.mapM_cons] at h
    cases h1 : f a with
    | error e => rw [h1] at h; cases h
    | ok b =>
      rw [h1] at h
      change (l.mapM f >>= fun bs => pure (b :: bs)) = _ at h
      cases h2 : l.mapM f with
      | error e => rw [h2] at h; cases h
      | ok bs => rw [h2] at h; cases h; exact .cons h1 (ih h2)

theorem mapM_except_exists {α β : Type} {f : α → Except PyErr β} (l : List α)
    (h : ∀ a ∈ l, ∃ b, f a = .ok b) : ∃ r, l.mapM f = .ok r := by
  induction l with
  | nil => exact ⟨[], rfl⟩
  | cons a l ih =>
    obtain ⟨b, hb⟩ := h a (by simp)
    obtain ⟨bs, hbs⟩ := ih (fun a ha => h a (by simp [ha]))
    exact ⟨b :: bs, by rw [List.mapM_cons, hb]; change (l.mapM f >>= fun bs => pure (b :: bs)) = _; rw [hbs]; rfl⟩

theorem reorder_ok {sp sp' : StdPattern} {order : List ℕ} (h : (sp.mList.map MCmd.node).Nodup)
    (hr : sp.reorder order = .ok sp') :
    sp' = { sp with mList := sp'.mList } ∧ sp'.mList.map MCmd.node = order ∧
      ∀ m ∈ sp'.mList, m ∈ sp.mList := by
  unfold StdPattern.reorder at hr
  cases hm : order.mapM sp.lookupM with
  | error e => rw [hm] at hr; cases hr
  | ok ms =>
    rw [hm] at hr; cases hr
    refine ⟨rfl, ?_, ?_⟩
    · have h2 := mapM_except_ok order hm
      have : ∀ {l : List ℕ} {r : List MCmd}, List.Forall₂ (fun n b =>
          sp.lookupM n = Except.ok b) l r →
          r.map MCmd.node = l ∧ ∀ m ∈ r, m ∈ sp.mList := by
        intro l r hlr
        induction hlr with
        | nil => exact ⟨rfl, by simp⟩
        | @cons n b l r hb _ ih =>
          have hb' : PyDict.get? sp.mDict n = some b := by
            unfold StdPattern.lookupM at hb
            split at hb
            · rename_i m hm; cases hb; exact hm
            · cases hb
          by_cases hn : n ∈ sp.mList.map MCmd.node
          · obtain ⟨m, hm, rfl⟩ := List.mem_map.1 hn
            rw [(mDict_get h).1 m hm] at hb'; cases hb'
            refine ⟨by simp [ih.1], ?_⟩
            intro m' hm'
            rcases List.mem_cons.1 hm' with rfl | hm'
            · exact hm
            · exact ih.2 m' hm'
          · rw [(mDict_get h).2 n hn] at hb'; cases hb'
      exact (this h2).1
    · have h2 := mapM_except_ok order hm
      intro m hmem
      have h3 : ∃ n, sp.lookupM n = Except.ok m := by
        clear hm
        induction h2 with
        | nil => simp at hmem
        | @cons n b l r hb _ ih =>
          rcases List.mem_cons.1 hmem with rfl | hmem
          · exact ⟨n, hb⟩
          · exact ih hmem
      obtain ⟨n, hn⟩ := h3
      have hb' : PyDict.get? sp.mDict n = some m := by
        unfold StdPattern.lookupM at hn
        split at hn
        · rename_i m' hm'; cases hn; exact hm'
        · cases hn
      by_cases hnm : n ∈ sp.mList.map MCmd.node
      · obtain ⟨m', hm', rfl⟩ := List.mem_map.1 hnm
        rw [(mDict_get h).1 m' hm'] at hb'; cases hb'; exact hm'
      · rw [(mDict_get h).2 n hnm] at hb'; cases hb'

theorem reorder_exists {sp : StdPattern} {order : List ℕ} (h : (sp.mList.map MCmd.node).Nodup)
    (ho : ∀ n ∈ order, n ∈ sp.mList.map MCmd.node) : ∃ sp', sp.reorder order = .ok sp' := by
  unfold StdPattern.reorder
  have : ∃ ms, order.mapM sp.lookupM = .ok ms := by
    apply mapM_except_exists
    intro n hn
    obtain ⟨m, hm, rfl⟩ := List.mem_map.1 (ho n hn)
    exact ⟨m, by unfold StdPattern.lookupM; rw [(mDict_get h).1 m hm]⟩
  obtain ⟨ms, hms⟩ := this
  exact ⟨_, by rw [hms]; rfl⟩

theorem perm_of_map_node {l l' : List MCmd} (hn : (l.map MCmd.node).Nodup)
    (h : (l'.map MCmd.node).Perm (l.map MCmd.node)) (hs : ∀ m ∈ l', m ∈ l) : l'.Perm l := by
  have n1 : l.Nodup := List.Nodup.of_map _ hn
  have n2 : l'.Nodup := List.Nodup.of_map _ (h.nodup_iff.2 hn)
  rw [List.perm_ext_iff_of_nodup n2 n1]
  intro m
  refine ⟨hs m, fun hm => ?_⟩
  have : m.node ∈ l'.map MCmd.node := h.mem_iff.2 (List.mem_map_of_mem hm)
  obtain ⟨m', hm', he⟩ := List.mem_map.1 this
  have : m' = m := List.inj_on_of_nodup_map hn (hs m' hm') hm he
  exact this ▸ hm'

/-- Measurements of distinct nodes commute in every fixed branch. -/
theorem semCmds_meas_perm (r : ℕ → Bool) {l l' : List MCmd} (h : l.Perm l') :
    (l.map MCmd.node).Nodup → ∀ ψ,
    semCmds r (l.map MCmd.toCmd) ψ = semCmds r (l'.map MCmd.toCmd) ψ := by
  induction h with
  | nil => intro _ _; rfl
  | cons m _ ih =>
    intro hn ψ
    simp only [List.map_cons, List.nodup_cons] at hn
    simp only [List.map_cons, semCmds_cons]
    exact ih hn.2 _
  | swap a b l =>
    intro hn ψ
    simp only [List.map_cons, List.nodup_cons, List.mem_cons, not_or] at hn
    simp only [List.map_cons, semCmds_cons]
    congr 1
    have hne : b.node ≠ a.node := hn.1.1
    have := semCmds_meas_comm r [b] (fun ψ => a.toCmd.sem r ψ) (by
      intro m hm U ψ
      rw [List.mem_singleton] at hm; subst hm
      simp only [MCmd.toCmd, Command.sem, projOut_eq_op1]
      rw [op1_comm _ _ hne, op1_comm _ _ hne, op1_comm _ _ hne]) ψ
    exact this
  | trans h1 _ ih1 ih2 =>
    intro hn ψ
    rw [ih1 hn ψ, ih2 ((h1.map _).nodup_iff.1 hn) ψ]

/-- **C20** A valid order is accepted, keeps the pattern well-formed and does not change what it
computes in any branch. -/
theorem C20_reorder (sp : StdPattern) (hw : sp.WF) (order : List ℕ) (ho : ValidOrder sp order) :
    ∃ sp', sp.reorder order = .ok sp' ∧ sp'.WF ∧ sp'.mList.map MCmd.node = order ∧
      sp'.inputs = sp.inputs ∧ sp'.outputs = sp.outputs ∧ sp'.eSet = sp.eSet ∧
      ∀ edges, StdPattern.Enumerates edges sp.eSet → ∀ r ψ,
        semCmds r (sp'.cmds edges) ψ = semCmds r (sp.cmds edges) ψ := by
  obtain ⟨sp', h⟩ := reorder_exists (order := order) hw.m_nodup (fun n hn => ho.1.mem_iff.1 hn)
  obtain ⟨e, hm, hsub⟩ := reorder_ok hw.m_nodup h
  have hperm : sp'.mList.Perm sp.mList := perm_of_map_node hw.m_nodup (by rw [hm]; exact ho.1) hsub
  have hmem : ∀ n, n ∈ sp'.measNodes ↔ n ∈ sp.measNodes := fun n => (hperm.map _).mem_iff
  have en : sp'.nodeList = sp.nodeList := by rw [e]; rfl
  have eE : sp'.eSet = sp.eSet := by rw [e]
  have eI : sp'.inputs = sp.inputs := by rw [e]
  have eO : sp'.outputs = sp.outputs := by rw [e]
  have eC : sp'.cDict = sp.cDict := by rw [e]
  have eX : sp'.xDict = sp.xDict := by rw [e]
  have eZ : sp'.zDict = sp.zDict := by rw [e]
  have eN : sp'.nList = sp.nList := by rw [e]
  refine ⟨sp', h, ⟨?_, ?_, ?_, ?_, ?_, ?_, ?_, ?_, ?_, ?_, ?_, ?_, ?_, ?_, ?_, ?_⟩, hm, eI, eO, eE, ?_⟩
  · rw [en]; exact hw.nodes_nodup
  · rw [en, eE]; exact hw.edge
  · rw [eE]; exact hw.loop
  · exact (hperm.map _).nodup_iff.2 hw.m_nodup
  · intro n hn; rw [en]; exact hw.m_sub n ((hmem n).1 hn)
  · intro a m c hl
    have := ho.2 (a.map MCmd.node) m.node (c.map MCmd.node) (by rw [← hm, hl]; simp) m
      (hsub m (by rw [hl]; simp)) rfl
    exact this
  · rw [eO]; exact hw.out_nodup
  · intro n; rw [eO, en, hmem]; exact hw.out n
  · rw [eC]; exact hw.nc
  · rw [eX]; exact hw.nx
  · rw [eZ]; exact hw.nz
  · rw [eC, eO]; exact hw.lc
  · rw [eX, eO]; exact hw.lx
  · rw [eZ, eO]; exact hw.lz
  · intro k i hi; rw [hmem]; rw [eX] at hi; exact hw.dx k i hi
  · intro k i hi; rw [hmem]; rw [eZ] at hi; exact hw.dz k i hi
  · intro edges hen r ψ
    rw [semCmds_cmds sp edges hen, semCmds_cmds sp' edges (by rw [eE]; exact hen)]
    unfold StdBody.sem
    rw [eC, eX, eZ, eE, eN, semCmds_meas_perm r hperm (by rw [hm]; exact ho.1.nodup_iff.2 hw.m_nodup)]

theorem validOrder_unchanged (sp : StdPattern) (hw : sp.WF) :
    ValidOrder sp (sp.mList.map MCmd.node) := by
  refine ⟨List.Perm.refl _, ?_⟩
  intro a n c h m hm hn
  obtain ⟨a', c', h1, h2, h3⟩ : ∃ a' c', sp.mList = a' ++ m :: c' ∧ a'.map MCmd.node = a ∧
      c'.map MCmd.node = c := by
    obtain ⟨a', c', hl⟩ := List.append_of_mem hm
    rw [hl, List.map_append, List.map_cons, hn] at h
    have hnd := hw.m_nodup
    unfold StdPattern.measNodes at hnd
    rw [hl, List.map_append, List.map_cons, hn] at hnd
    have hna : n ∉ a'.map MCmd.node := fun hmem => (List.nodup_append.1 hnd).2.2 _ hmem _ (by simp) rfl
    have hna' : n ∉ a := by
      rw [h] at hnd
      exact fun hmem => (List.nodup_append.1 hnd).2.2 _ hmem _ (by simp) rfl
    refine ⟨a', c', hl, ?_⟩
    rcases List.append_eq_append_iff.1 h with ⟨d, h1, h2⟩ | ⟨d, h1, h2⟩
    · cases d with
      | nil => simp at h1 h2; exact ⟨h1.symm, h2⟩
      | cons x d =>
        simp only [List.cons_append, List.cons.injEq] at h2
        exact absurd (by rw [h1, ← h2.1]; simp) hna'
    · cases d with
      | nil => simp at h1 h2; exact ⟨h1, h2.symm⟩
      | cons x d =>
        simp only [List.cons_append, List.cons.injEq] at h2
        exact absurd (by rw [h1, ← h2.1]; simp) hna
  have := hw.mo a' m c' h1
  rw [h2] at this; exact this

/-! ### C20: the minimization loop -/

/-- What the loop returns, in terms of the heuristics tried. -/
theorem minimizeLoop_spec (sp : StdPattern) (nbr : ℕ → List ℕ) (hs : List StdPattern.Heuristic) :
    ∀ (best : Option (StdPattern × ℤ)) (q : StdPattern),
    (∀ b, best = some b → b.2 = b.1.maxSpace nbr) →
    sp.minimizeLoop nbr hs best = .ok q →
    -- a known-optimal heuristic answered
    (∃ f ∈ hs, ∃ o, f sp = .ok (some ⟨o, true⟩) ∧ sp.reorder o = .ok q) ∨
    -- or the best of the tried orders (and of `best`)
    ((∀ b, best = some b → q.maxSpace nbr ≤ b.2) ∧
      (∀ f ∈ hs, ∀ o, f sp = .ok (some ⟨o, false⟩) → ∃ t, sp.reorder o = .ok t ∧
        q.maxSpace nbr ≤ t.maxSpace nbr) ∧
      ((∃ f ∈ hs, ∃ o, f sp = .ok (some ⟨o, false⟩) ∧ sp.reorder o = .ok q) ∨
        (∃ b, best = some b ∧ q = b.1) ∨
        (best = none ∧ q = sp ∧ ∀ f ∈ hs, f sp = .ok none))) := by
  induction hs with
  | nil =>
    intro best q hb h
    cases best with
    | none => cases h; exact Or.inr ⟨by simp, by simp, Or.inr (Or.inr ⟨rfl, rfl, by simp⟩)⟩
    | some b =>
      cases h
      exact Or.inr ⟨fun b' h' => by cases h'; rw [hb b rfl], by simp, Or.inr (Or.inl ⟨b, rfl, rfl⟩)⟩
  | cons f fs ih =>
    intro best q hb h
    unfold StdPattern.minimizeLoop at h
    cases hf : f sp with
    | error e => rw [hf] at h; cases h
    | ok r =>
      rw [hf] at h
      cases r with
      | none =>
        change sp.minimizeLoop nbr fs best = _ at h
        rcases ih best q hb h with ⟨f', hf', o, h1⟩ | ⟨h1, h2, h3⟩
        · exact Or.inl ⟨f', by simp [hf'], o, h1⟩
        · refine Or.inr ⟨h1, ?_, ?_⟩
          · intro f' hf' o ho
            rcases List.mem_cons.1 hf' with rfl | hf'
            · rw [hf] at ho; cases ho
            · exact h2 f' hf' o ho
          · rcases h3 with ⟨f', hf', o, h3⟩ | h3 | ⟨h3, h4, h5⟩
            · exact Or.inl ⟨f', by simp [hf'], o, h3⟩
            · exact Or.inr (Or.inl h3)
            · refine Or.inr (Or.inr ⟨h3, h4, fun f' hf' => ?_⟩)
              rcases List.mem_cons.1 hf' with rfl | hf'
              · exact hf
              · exact h5 f' hf'
      | some hr =>
        obtain ⟨order, known⟩ := hr
        change (sp.reorder order >>= fun tentative =>
          if known then pure tentative else
            if StdPattern.keepBest best (tentative.maxSpace nbr) then sp.minimizeLoop nbr fs best
            else sp.minimizeLoop nbr fs (some (tentative, tentative.maxSpace nbr))) = _ at h
        cases ht : sp.reorder order with
        | error e => rw [ht] at h; cases h
        | ok t =>
          rw [ht] at h
          change (if known then pure t else
            if StdPattern.keepBest best (t.maxSpace nbr) then sp.minimizeLoop nbr fs best
            else sp.minimizeLoop nbr fs (some (t, t.maxSpace nbr))) = _ at h
          cases known with
          | true => cases h; exact Or.inl ⟨f, by simp, order, hf, ht⟩
          | false =>
            simp only [Bool.false_eq_true, if_false] at h
            split at h
            · rename_i hk
              obtain ⟨b, rfl, hbt⟩ : ∃ b, best = some b ∧ b.2 ≤ t.maxSpace nbr := by
                unfold StdPattern.keepBest at hk
                cases best with
                | none => simp at hk
                | some b => exact ⟨b, rfl, by simpa using hk⟩
              rcases ih _ q hb h with ⟨f', hf', o, h1⟩ | ⟨h1, h2, h3⟩
              · exact Or.inl ⟨f', by simp [hf'], o, h1⟩
              · refine Or.inr ⟨h1, ?_, ?_⟩
                · intro f' hf' o ho
                  rcases List.mem_cons.1 hf' with rfl | hf'
                  · rw [hf] at ho; cases ho
                    exact ⟨t, ht, le_trans (h1 b rfl) hbt⟩
                  · exact h2 f' hf' o ho
                · rcases h3 with ⟨f', hf', o, h3⟩ | h3 | ⟨h3, -⟩
                  · exact Or.inl ⟨f', by simp [hf'], o, h3⟩
                  · exact Or.inr (Or.inl h3)
                  · cases h3
            · rename_i hk
              rcases ih (some (t, t.maxSpace nbr)) q (by intro b h'; cases h'; rfl) h with
                ⟨f', hf', o, h1⟩ | ⟨h1, h2, h3⟩
              · exact Or.inl ⟨f', by simp [hf'], o, h1⟩
              · have h1' := h1 _ rfl
                refine Or.inr ⟨?_, ?_, ?_⟩
                · intro b hbb
                  subst hbb
                  unfold StdPattern.keepBest at hk
                  simp only [decide_eq_true_eq, not_le] at hk
                  exact le_trans h1' (le_of_lt hk)
                · intro f' hf' o ho
                  rcases List.mem_cons.1 hf' with rfl | hf'
                  · rw [hf] at ho; cases ho
                    exact ⟨t, ht, h1'⟩
                  · exact h2 f' hf' o ho
                · rcases h3 with ⟨f', hf', o, h3⟩ | ⟨b, h3, h4⟩ | ⟨h3, -⟩
                  · exact Or.inl ⟨f', by simp [hf'], o, h3⟩
                  · cases h3; exact Or.inl ⟨f, by simp, order, hf, by rw [ht, h4]⟩
                  · cases h3


/-- **C20** If every order proposed by the heuristics is valid, the pattern returned by
`minimize_space` is well-formed, has the same inputs, outputs and edges, and computes the same thing in
every branch. -/
theorem C20_preserves (sp : StdPattern) (hw : sp.WF) (nbr : ℕ → List ℕ)
    (hs : List StdPattern.Heuristic)
    (hv : ∀ f ∈ hs, ∀ o k, f sp = .ok (some ⟨o, k⟩) → ValidOrder sp o)
    (q : StdPattern) (h : sp.minimizeSpace nbr hs = .ok q) :
    q.WF ∧ q.inputs = sp.inputs ∧ q.outputs = sp.outputs ∧ q.eSet = sp.eSet ∧
    ∀ edges, StdPattern.Enumerates edges sp.eSet → ∀ r ψ,
      semCmds r (q.cmds edges) ψ = semCmds r (sp.cmds edges) ψ := by
  have key : ∀ o, ValidOrder sp o → sp.reorder o = .ok q → q.WF ∧ q.inputs = sp.inputs ∧
      q.outputs = sp.outputs ∧ q.eSet = sp.eSet ∧
      ∀ edges, StdPattern.Enumerates edges sp.eSet → ∀ r ψ,
        semCmds r (q.cmds edges) ψ = semCmds r (sp.cmds edges) ψ := by
    intro o ho hr
    obtain ⟨q', h1, h2, -, h4, h5, h6, h7⟩ := C20_reorder sp hw o ho
    rw [hr] at h1; cases h1
    exact ⟨h2, h4, h5, h6, h7⟩
  rcases minimizeLoop_spec sp nbr hs none q (by simp) h with ⟨f, hf, o, h1, h2⟩ | ⟨-, -, h3⟩
  · exact key o (hv f hf o _ h1) h2
  · rcases h3 with ⟨f, hf, o, h1, h2⟩ | ⟨b, hb, -⟩ | ⟨-, rfl, -⟩
    · exact key o (hv f hf o _ h1) h2
    · cases hb
    · exact ⟨hw, rfl, rfl, rfl, fun _ _ _ _ => rfl⟩

/-- **C20** If no heuristic claims to be optimal, the result has the least `max_space` among the
orders proposed, and it is one of them (or the pattern itself when all heuristics decline). -/
theorem C20_minimum (sp : StdPattern) (nbr : ℕ → List ℕ) (hs : List StdPattern.Heuristic)
    (hk : ∀ f ∈ hs, ∀ o, f sp ≠ .ok (some ⟨o, true⟩))
    (q : StdPattern) (h : sp.minimizeSpace nbr hs = .ok q) :
    (∀ f ∈ hs, ∀ o, f sp = .ok (some ⟨o, false⟩) → ∃ t, sp.reorder o = .ok t ∧
      q.maxSpace nbr ≤ t.maxSpace nbr) ∧
    ((∃ f ∈ hs, ∃ o, f sp = .ok (some ⟨o, false⟩) ∧ sp.reorder o = .ok q) ∨
      (q = sp ∧ ∀ f ∈ hs, f sp = .ok none)) := by
  rcases minimizeLoop_spec sp nbr hs none q (by simp) h with ⟨f, hf, o, h1, -⟩ | ⟨-, h2, h3⟩
  · exact absurd h1 (hk f hf o)
  · refine ⟨h2, ?_⟩
    rcases h3 with h3 | ⟨b, hb, -⟩ | ⟨-, h3, h4⟩
    · exact Or.inl h3
    · cases hb
    · exact Or.inr ⟨h3, h4⟩

theorem reorder_unchanged (sp : StdPattern) (hw : sp.WF) :
    sp.reorder (sp.mList.map MCmd.node) = .ok sp := by
  unfold StdPattern.reorder
  have key : ∀ l : List MCmd, (∀ m ∈ l, m ∈ sp.mList) →
      (l.map MCmd.node).mapM sp.lookupM = .ok l := by
    intro l
    induction l with
    | nil => intro _; rfl
    | cons m l ih =>
      intro h
      rw [List.map_cons, List.mapM_cons]
      have h1 : sp.lookupM m.node = .ok m := by
        unfold StdPattern.lookupM; rw [(mDict_get hw.m_nodup).1 m (h m (by simp))]
      rw [h1]
      change ((l.map MCmd.node).mapM sp.lookupM >>= fun bs => pure (m :: bs)) = _
      rw [ih (fun m hm => h m (by simp [hm]))]; rfl
  rw [key sp.mList (fun _ h => h)]; rfl

/-- **C20** If the unchanged order is among the heuristics, and every heuristic that claims to be
optimal is (see `C20_causal_flow_optimal`), `minimize_space` never increases `max_space`. -/
theorem C20_not_worse (sp : StdPattern) (hw : sp.WF) (nbr : ℕ → List ℕ)
    (hs : List StdPattern.Heuristic) (hu : StdPattern.orderUnchanged ∈ hs)
    (hk : ∀ f ∈ hs, ∀ o t, f sp = .ok (some ⟨o, true⟩) → sp.reorder o = .ok t →
      t.maxSpace nbr ≤ sp.maxSpace nbr)
    (q : StdPattern) (h : sp.minimizeSpace nbr hs = .ok q) : q.maxSpace nbr ≤ sp.maxSpace nbr := by
  rcases minimizeLoop_spec sp nbr hs none q (by simp) h with ⟨f, hf, o, h1, h2⟩ | ⟨-, h2, -⟩
  · exact hk f hf o q h1 h2
  · obtain ⟨t, ht, hq⟩ := h2 _ hu _ rfl
    rw [reorder_unchanged sp hw] at ht; cases ht
    exact hq

/-! ### C20: greedy heuristic -/

/-- The selection returns one of the candidates, of least degree
(`min(candidates, key=graph.degree)`). -/
def ChooseOk (choose : (ℕ → ℕ) → Finset ℕ → ℕ) : Prop :=
  ∀ deg s, s ≠ ∅ → choose deg s ∈ s ∧ ∀ k ∈ s, deg (choose deg s) ≤ deg k

theorem mem_foldr_union {α : Type} (l : List α) (f : α → Finset ℕ) (k : ℕ) :
    k ∈ (l.map f).foldr (· ∪ ·) ∅ ↔ ∃ a ∈ l, k ∈ f a := by
  induction l with
  | nil => simp
  | cons a l ih => simp [ih]

theorem mem_dependency_of_mem {sp : StdPattern} {m : MCmd} (hm : m ∈ sp.mList) {k : ℕ}
    (hk : k ∈ m.sDomain ∨ k ∈ m.tDomain) : k ∈ sp.dependency m.node := by
  unfold StdPattern.dependency
  simp only [Finset.mem_union]
  left; left
  rw [mem_foldr_union]
  exact ⟨m, by simp [hm], by simpa using hk⟩

theorem dependency_measured {sp : StdPattern} (hw : sp.WF) {a c : List MCmd} {m : MCmd}
    (h : sp.mList = a ++ m :: c) : ∀ k ∈ sp.dependency m.node, k ∈ a.map MCmd.node := by
  intro k hk
  unfold StdPattern.dependency at hk
  simp only [Finset.mem_union] at hk
  have hmn : m.node ∈ sp.measNodes := by unfold StdPattern.measNodes; rw [h]; simp
  have hno : m.node ∉ sp.outputs := fun ho => ((hw.out _).1 ho).2 hmn
  have hnil : ∀ {d : PyDict ℕ (Finset ℕ)}, (∀ k ∈ PyDict.keys d, k ∈ sp.outputs) →
      PyDict.get? d m.node = none := by
    intro d hd
    cases hg : PyDict.get? d m.node with
    | none => rfl
    | some v => exact absurd (hd _ (by rw [← PyDict.get?_isSome_iff, hg]; rfl)) hno
  rw [hnil hw.lz, hnil hw.lx, mem_foldr_union] at hk
  simp only [Option.getD_none, Finset.notMem_empty, or_false, List.mem_filter, decide_eq_true_eq] at hk
  obtain ⟨m', ⟨hm', hn⟩, hk⟩ := hk
  have : m' = m := List.inj_on_of_nodup_map hw.m_nodup hm' (by rw [h]; simp) hn
  subst this
  rcases Finset.mem_union.1 hk with hk | hk
  · exact (hw.mo a m' c h).1 k hk
  · exact (hw.mo a m' c h).2 k hk

theorem greedyLoop_spec {sp : StdPattern} (hw : sp.WF) {choose : (ℕ → ℕ) → Finset ℕ → ℕ}
    (hc : ChooseOk choose) : ∀ (k : ℕ) (measured : List ℕ) (rest : Finset ℕ), rest.card = k →
    (∀ n, n ∈ sp.measNodes ↔ n ∈ measured ∨ n ∈ rest) → (∀ n ∈ measured, n ∉ rest) →
    ∃ o, sp.greedyLoop choose measured rest = .ok o ∧ o.Nodup ∧ (∀ n, n ∈ o ↔ n ∈ rest) ∧
      ∀ a n c, o = a ++ n :: c → ∀ i ∈ sp.dependency n, i ∈ measured ∨ i ∈ a := by
  intro k
  induction k with
  | zero =>
    intro measured rest hk _ _
    rw [Finset.card_eq_zero] at hk
    subst hk
    refine ⟨[], by unfold StdPattern.greedyLoop; simp, by simp, by simp, ?_⟩
    intro a n c h; simp at h
  | succ k ih =>
    intro measured rest hk hmem hdis
    have hne : rest ≠ ∅ := by rintro rfl; simp at hk
    -- the first remaining measurement of the pattern is a candidate
    have hcand : rest.filter (fun i => sp.dependency i \ measured.toFinset = ∅) ≠ ∅ := by
      have : ∃ (a : List MCmd) (m : MCmd) (c : List MCmd), sp.mList = a ++ m :: c ∧ m.node ∈ rest ∧
          ∀ m' ∈ a, m'.node ∉ rest := by
        have hex : ∃ m ∈ sp.mList, m.node ∈ rest := by
          obtain ⟨n, hn⟩ := Finset.nonempty_iff_ne_empty.2 hne
          obtain ⟨m, hm, rfl⟩ := List.mem_map.1 ((hmem n).2 (Or.inr hn))
          exact ⟨m, hm, hn⟩
        generalize sp.mList = l at hex
        induction l with
        | nil => simp at hex
        | cons x l ihl =>
          by_cases hx : x.node ∈ rest
          · exact ⟨[], x, l, rfl, hx, by simp⟩
          · obtain ⟨a, m, c, h1, h2, h3⟩ := ihl (by
              obtain ⟨m, hm, h⟩ := hex
              rcases List.mem_cons.1 hm with rfl | hm
              · exact absurd h hx
              · exact ⟨m, hm, h⟩)
            refine ⟨x :: a, m, c, by rw [h1]; rfl, h2, ?_⟩
            intro m' hm'
            rcases List.mem_cons.1 hm' with rfl | hm'
            · exact hx
            · exact h3 m' hm'
      obtain ⟨a, m, c, h1, h2, h3⟩ := this
      apply Finset.nonempty_iff_ne_empty.1
      refine ⟨m.node, Finset.mem_filter.2 ⟨h2, ?_⟩⟩
      rw [Finset.sdiff_eq_empty_iff_subset]
      intro i hi
      obtain ⟨m', hm', rfl⟩ := List.mem_map.1 (dependency_measured hw h1 i hi)
      have : m'.node ∈ sp.measNodes := by
        unfold StdPattern.measNodes; rw [h1]; exact List.mem_map_of_mem (by simp [hm'])
      rcases (hmem _).1 this with h | h
      · exact List.mem_toFinset.2 h
      · exact absurd h (h3 m' hm')
    unfold StdPattern.greedyLoop
    rw [dif_neg hne]
    simp only [if_neg hcand]
    generalize hnx : choose (fun i => (sp.eSet.filter (fun e => i ∈ e ∧ ∀ k ∈ measured, k ∉ e)).card)
      (rest.filter (fun i => sp.dependency i \ measured.toFinset = ∅)) = next
    have hch := (hc (fun i => (sp.eSet.filter (fun e => i ∈ e ∧ ∀ k ∈ measured, k ∉ e)).card) _ hcand).1
    rw [hnx] at hch
    obtain ⟨hnr, hdep⟩ := Finset.mem_filter.1 hch
    rw [dif_pos hnr]
    obtain ⟨o, h1, h2, h3, h4⟩ := ih (measured ++ [next]) (rest.erase next)
      (by rw [Finset.card_erase_of_mem hnr, hk]; rfl)
      (by
        intro n
        rw [hmem n]
        simp only [List.mem_append, List.mem_singleton, Finset.mem_erase]
        by_cases hn : n = next
        · subst hn; simp [hnr]
        · simp [hn])
      (by
        intro n hn
        simp only [List.mem_append, List.mem_singleton] at hn
        simp only [Finset.mem_erase, not_and]
        rcases hn with hn | rfl
        · exact fun _ => hdis n hn
        · exact fun h => absurd rfl h)
    refine ⟨next :: o, by rw [h1]; rfl, ?_, ?_, ?_⟩
    · rw [List.nodup_cons]; exact ⟨fun h => by have := (h3 next).1 h; simp at this, h2⟩
    · intro n
      rw [List.mem_cons, h3 n, Finset.mem_erase]
      by_cases hn : n = next
      · subst hn; simp [hnr]
      · simp [hn]
    · intro a n c h i hi
      cases a with
      | nil =>
        simp only [List.nil_append, List.cons.injEq] at h
        obtain ⟨rfl, -⟩ := h
        rw [Finset.sdiff_eq_empty_iff_subset] at hdep
        exact Or.inl (List.mem_toFinset.1 (hdep hi))
      | cons x a =>
        simp only [List.cons_append, List.cons.injEq] at h
        obtain ⟨rfl, h⟩ := h
        rcases h4 a n c h i hi with h5 | h5
        · rcases List.mem_append.1 h5 with h5 | h5
          · exact Or.inl h5
          · right; rw [List.mem_singleton] at h5; simp [h5]
        · right; simp [h5]

/-- **C20** The greedy heuristic never fails on a well-formed pattern and returns a valid order,
whatever way ties are broken. -/
theorem C20_greedy_valid (sp : StdPattern) (hw : sp.WF) (choose : (ℕ → ℕ) → Finset ℕ → ℕ)
    (hc : ChooseOk choose) :
    ∃ o, StdPattern.greedyDegree choose sp = .ok (some ⟨o, false⟩) ∧ ValidOrder sp o := by
  have hmem : ∀ n, n ∈ sp.measNodes ↔ n ∈ ([] : List ℕ) ∨
      n ∈ (sp.inputs.toFinset ∪ (sp.nList.map Prod.fst).toFinset) \ sp.outputs.toFinset := by
    intro n
    simp only [List.not_mem_nil, false_or, Finset.mem_sdiff, Finset.mem_union, List.mem_toFinset]
    rw [hw.out n]
    have e : n ∈ sp.nodeList ↔ n ∈ sp.inputs ∨ n ∈ sp.nList.map Prod.fst := by
      unfold StdPattern.nodeList; rw [List.mem_append]
    rw [e]
    constructor
    · intro h; exact ⟨e.1 (hw.m_sub n h), fun h' => h'.2 h⟩
    · rintro ⟨h1, h2⟩; by_contra h3; exact h2 ⟨h1, h3⟩
  obtain ⟨o, h1, h2, h3, h4⟩ := greedyLoop_spec hw hc _ [] _ rfl hmem (by simp)
  refine ⟨o, ?_, ?_, ?_⟩
  · unfold StdPattern.greedyDegree; simp only [h1]; rfl
  · change o.Perm sp.measNodes
    rw [List.perm_ext_iff_of_nodup h2 hw.m_nodup]
    intro n; rw [h3 n]; have := hmem n; simp only [List.not_mem_nil, false_or] at this; exact this.symm
  · intro a n c h m hm hn
    have := h4 a n c h
    subst hn
    exact ⟨fun k hk => by simpa using this k (mem_dependency_of_mem hm (Or.inl hk)),
      fun k hk => by simpa using this k (mem_dependency_of_mem hm (Or.inr hk))⟩

/-- **C20** With the two heuristics that do not use flows, `minimize_space` succeeds, preserves the
computation, and does not increase `max_space`. -/
theorem C20_greedy_unchanged (sp : StdPattern) (hw : sp.WF) (nbr : ℕ → List ℕ)
    (choose : (ℕ → ℕ) → Finset ℕ → ℕ) (hc : ChooseOk choose) :
    ∃ q, sp.minimizeSpace nbr [StdPattern.greedyDegree choose, StdPattern.orderUnchanged] = .ok q ∧
      q.WF ∧ q.maxSpace nbr ≤ sp.maxSpace nbr ∧
      ∀ edges, StdPattern.Enumerates edges sp.eSet → ∀ r ψ,
        semCmds r (q.cmds edges) ψ = semCmds r (sp.cmds edges) ψ := by
  obtain ⟨o, h1, h2⟩ := C20_greedy_valid sp hw choose hc
  obtain ⟨t, ht, -⟩ := C20_reorder sp hw o h2
  have hq : ∃ q, sp.minimizeSpace nbr [StdPattern.greedyDegree choose, StdPattern.orderUnchanged] = .ok q := by
    unfold StdPattern.minimizeSpace StdPattern.minimizeLoop
    rw [h1]
    change ∃ q, (sp.reorder o >>= fun t => sp.minimizeLoop nbr [StdPattern.orderUnchanged]
      (some (t, t.maxSpace nbr))) = .ok q
    rw [ht]
    change ∃ q, sp.minimizeLoop nbr [StdPattern.orderUnchanged] (some (t, t.maxSpace nbr)) = .ok q
    unfold StdPattern.minimizeLoop
    change ∃ q, (sp.reorder (sp.mList.map MCmd.node) >>= fun t' =>
      if StdPattern.keepBest (some (t, t.maxSpace nbr)) (t'.maxSpace nbr) then
        sp.minimizeLoop nbr [] (some (t, t.maxSpace nbr))
      else sp.minimizeLoop nbr [] (some (t', t'.maxSpace nbr))) = .ok q
    rw [reorder_unchanged sp hw]
    change ∃ q, (if StdPattern.keepBest (some (t, t.maxSpace nbr)) (sp.maxSpace nbr) then
        sp.minimizeLoop nbr [] (some (t, t.maxSpace nbr))
      else sp.minimizeLoop nbr [] (some (sp, sp.maxSpace nbr))) = .ok q
    split
    · exact ⟨_, rfl⟩
    · exact ⟨_, rfl⟩
  obtain ⟨q, hq⟩ := hq
  obtain ⟨p1, -, -, -, p5⟩ := C20_preserves sp hw nbr _ (by
    intro f hf o' k ho'
    simp only [List.mem_cons, List.not_mem_nil, or_false] at hf
    rcases hf with rfl | rfl
    · rw [h1] at ho'; cases ho'; exact h2
    · cases ho'; exact validOrder_unchanged sp hw) q hq
  refine ⟨q, hq, p1, ?_, p5⟩
  refine C20_not_worse sp hw nbr _ (by simp) ?_ q hq
  intro f hf o' t' ho'
  simp only [List.mem_cons, List.not_mem_nil, or_false] at hf
  rcases hf with rfl | rfl
  · rw [h1] at ho'; cases ho'
  · cases ho'

/-! ### C20: orders of a causal flow are optimal -/

/-- `order` is compatible with a causal flow `f` of the graph: `f n` is a non-input neighbour of `n`,
not measured before `n`, whose other neighbours are not measured before `n` either. -/
def FlowOrder (I : List ℕ) (E : Finset (Sym2 ℕ)) (order : List ℕ) (f : ℕ → ℕ) : Prop :=
  ∀ a n c, order = a ++ n :: c → f n ∉ I ∧ s(n, f n) ∈ E ∧ f n ∉ a ∧ ∀ k ∈ a, s(k, f n) ∉ E

theorem needed_mono {I : List ℕ} {E : Finset (Sym2 ℕ)} {a b : List ℕ} (h : ∀ x ∈ a, x ∈ b) :
    needed I E a ⊆ needed I E b := by
  rintro n (h1 | h1 | ⟨k, hk, h1⟩)
  · exact Or.inl h1
  · exact Or.inr (Or.inl (h n h1))
  · exact Or.inr (Or.inr ⟨k, h k hk, h1⟩)

/-- **C20** The order of a causal flow is optimal among *all* measurement orders: if the measurement
order of `sp` is compatible with a causal flow, then `max_space` is at most that of any runnable
pattern with the same inputs, nodes and edges that measures the same set of nodes in any order. -/
theorem C20_causal_flow_optimal (sp : StdPattern) (hw : sp.WF) (nbr : ℕ → List ℕ)
    (hb : NbrOk sp.eSet nbr) (f : ℕ → ℕ) (hf : FlowOrder sp.inputs sp.eSet (sp.mList.map MCmd.node) f)
    (p : Pattern) (ms : List ℕ) (hms : ms.Perm (sp.mList.map MCmd.node))
    (hc : Competitor p sp.inputs (sp.inputs ++ sp.nList.map Prod.fst) sp.eSet ms) :
    sp.maxSpace nbr ≤ p.maxSpace := by
  have hin : sp.inputs.Nodup := (List.nodup_append.1 hw.nodes_nodup).1
  have hsp := (C18_max_space p).1
  have hp := hc.inputs
  have hms' : ms.Perm sp.measNodes := hms
  refine maxSpace_le hw hb _ ?_ ?_ ?_
  · have := hsp [] p.seq rfl
    simpa [liveCount, measuredIn, hp] using this
  · intro a c m hm S hS
    -- the bound before the last measurement of the competitor
    have hlast : ∀ S : Finset ℕ, (↑S ⊆ needed sp.inputs sp.eSet sp.measNodes) →
        (S.card : ℤ) - (sp.measNodes.length - 1) ≤ p.maxSpace := by
      intro S hS
      have hne : ms ≠ [] := by
        intro h; rw [h] at hms'
        have := hms'.symm.eq_nil; rw [hm] at this; simp at this
      obtain ⟨b, m', rfl⟩ : ∃ b m', ms = b ++ [m'] := ⟨ms.dropLast, ms.getLast hne, (List.dropLast_append_getLast hne).symm⟩
      obtain ⟨pre, meas, s, t, post, h1, h2, -⟩ := cut_at_measure hc.meas
      have hlive := hsp pre _ h1
      have hni := hc.needed_introduced h1
      rw [h2] at hni
      have hr : Runnable sp.inputs pre := by
        have := hc.run; rw [h1, hp] at this; exact this.prefix
      have hnd := hr.introduced_nodup hin
      have hcard : S.card ≤ (introduced sp.inputs pre).length := by
        rw [← List.toFinset_card_of_nodup hnd]
        refine Finset.card_le_card (fun x hx => List.mem_toFinset.2 (hni x ?_))
        exact needed_mono (fun y hy => hms'.mem_iff.2 hy) (hS hx)
      rw [introduced_length] at hcard
      unfold liveCount at hlive
      rw [hp, h2] at hlive
      have hl := hms'.length_eq
      simp only [List.length_append, List.length_singleton] at hl
      omega
    -- each remaining measurement needs a fresh node
    have grow : ∀ (c a : List ℕ) (m : ℕ), sp.measNodes = a ++ m :: c → ∀ S : Finset ℕ,
        (↑S ⊆ needed sp.inputs sp.eSet (a ++ [m])) → (S.card : ℤ) - a.length ≤ p.maxSpace := by
      intro c
      induction c with
      | nil =>
        intro a m hm S hS
        rw [← hm] at hS
        have := hlast S hS
        rw [hm] at this
        simp only [List.length_append, List.length_singleton] at this
        push_cast at this; omega
      | cons m' c ih =>
        intro a m hm S hS
        have hm2 : sp.measNodes = (a ++ [m]) ++ m' :: c := by rw [hm]; simp
        obtain ⟨f1, f2, f3, f4⟩ := hf (a ++ [m]) m' c hm2
        have hfn : f m' ∉ needed sp.inputs sp.eSet (a ++ [m]) := by
          rintro (h | h | ⟨k, hk, h⟩)
          · exact f1 h
          · exact f3 h
          · exact f4 k hk h
        have hS' : f m' ∉ S := fun h => hfn (hS h)
        have := ih (a ++ [m]) m' hm2 (insert (f m') S) (by
          intro x hx
          simp only [Finset.coe_insert, Set.mem_insert_iff, Finset.mem_coe] at hx
          rcases hx with rfl | hx
          · exact Or.inr (Or.inr ⟨m', by simp, f2⟩)
          · exact needed_mono (fun y hy => List.mem_append_left _ hy) (hS hx))
        rw [Finset.card_insert_of_notMem hS'] at this
        simp only [List.length_append, List.length_singleton] at this
        push_cast at this; omega
    exact grow c a m hm S hS
  · have hlive := hsp p.seq [] (by simp)
    have hr : Runnable sp.inputs p.seq := by rw [← hp]; exact hc.run
    have hnd := hr.introduced_nodup hin
    have hcard : sp.nodeList.length ≤ (introduced sp.inputs p.seq).length := by
      rw [← List.toFinset_card_of_nodup hnd, ← List.toFinset_card_of_nodup hw.nodes_nodup]
      refine Finset.card_le_card (fun x hx => ?_)
      have := hc.nodes x (List.mem_toFinset.1 hx)
      rw [hp] at this; exact List.mem_toFinset.2 this
    rw [introduced_length] at hcard
    unfold liveCount at hlive
    rw [hp, hc.meas, hms'.length_eq] at hlive
    omega

/-! ### Instances -/

/-- Neighbourhoods of the path 0 - 1 - 2. -/
def pathNbr : ℕ → List ℕ
  | 0 => [1]
  | 1 => [0, 2]
  | 2 => [1]
  | _ => []

/-- The standardized form of `stdExample` (a path 0 - 1 - 2). -/
noncomputable def stdExampleSP : StdPattern :=
  ⟨⟨[(1, .plus), (2, .plus)], {s(0, 1), s(1, 2)},
    [⟨0, .bloch ⟨1/4, .XY⟩, ∅ ∆ ∅, ∅ ∆ ∅⟩, ⟨1, .bloch ⟨1/8, .XY⟩, ∅ ∆ {0}, ∅ ∆ ∅⟩],
    [(2, {0})], [(2, {1})], []⟩, [0], [2]⟩

theorem stdExampleSP_eq : StdPattern.fromPattern stdExample = .ok stdExampleSP := by
  have : ((∅ : Finset (Sym2 ℕ)) ∆ {s(0, 1)}) ∆ {s(1, 2)} = {s(0, 1), s(1, 2)} := by decide
  unfold stdExampleSP
  rw [← this]
  rfl

theorem stdExample_noSelfLoop : NoSelfLoop stdExample.seq := by
  intro u v h
  have h' : Command.E u v ∈ [Command.N 1 .plus, .E 0 1, .M 0 (.bloch ⟨1/4, .XY⟩) ∅ ∅, .X 1 {0},
    .N 2 .plus, .E 1 2, .M 1 (.bloch ⟨1/8, .XY⟩) ∅ ∅, .X 2 {1}] := h
  simp at h'
  omega

theorem stdExampleSP_wf : stdExampleSP.WF :=
  fromPattern_wf stdExample_outputsOk stdExample_noSelfLoop stdExampleSP_eq

theorem pathNbr_ok : NbrOk stdExampleSP.eSet pathNbr := by
  intro u
  have e : stdExampleSP.eSet = {s(0, 1), s(1, 2)} := rfl
  rw [e]
  match u with
  | 0 => exact ⟨by decide, fun v => by simp [pathNbr]⟩
  | 1 => exact ⟨by decide, fun v => by simp [pathNbr]⟩
  | 2 => exact ⟨by decide, fun v => by simp [pathNbr]⟩
  | n + 3 => exact ⟨by simp [pathNbr], fun v => by simp [pathNbr]⟩

/-- The standard form needs 3 live qubits, the space-optimal pattern 2. -/
example : stdExampleSP.maxSpace pathNbr = 2 ∧
    ((Pattern.empty [0]).extend (stdExampleSP.cmds [(0, 1), (1, 2)])).maxSpace = 3 := ⟨rfl, rfl⟩

/-- The hypotheses of `C19_*` and `C20_causal_flow_optimal` are met. -/
example : ∃ q, stdExampleSP.toSpaceOptimalPattern pathNbr = .ok q ∧ q.maxSpace = 2 := by
  obtain ⟨q, hq⟩ := C19_succeeds _ stdExampleSP_wf _ pathNbr_ok
  exact ⟨q, hq, (C19_to_space_optimal _ stdExampleSP_wf _ pathNbr_ok q hq).2.2.2.2.2.2⟩

example : FlowOrder stdExampleSP.inputs stdExampleSP.eSet (stdExampleSP.mList.map MCmd.node) (· + 1) := by
  intro a n c h
  have e : stdExampleSP.mList.map MCmd.node = [0, 1] := rfl
  have e2 : stdExampleSP.eSet = {s(0, 1), s(1, 2)} := rfl
  have e3 : stdExampleSP.inputs = [0] := rfl
  rw [e] at h
  rw [e2, e3]
  match a, h with
  | [], h => simp at h; obtain ⟨rfl, -⟩ := h; decide
  | [x], h => simp at h; obtain ⟨rfl, rfl, -⟩ := h; decide
  | x :: y :: a, h => simp at h

/-- `min(candidates, key=degree)` with ties broken by the smallest label. -/
example : ∃ choose, ChooseOk choose := by
  classical
  have : ∀ (deg : ℕ → ℕ) (s : Finset ℕ), s ≠ ∅ → ∃ x ∈ s, ∀ k ∈ s, deg x ≤ deg k :=
    fun deg s hs => Finset.exists_min_image s deg (Finset.nonempty_iff_ne_empty.2 hs)
  refine ⟨fun deg s => if h : s ≠ ∅ then (this deg s h).choose else 0, fun deg s hs => ?_⟩
  simp only [dif_pos hs]
  exact (this deg s hs).choose_spec

end Graphix
