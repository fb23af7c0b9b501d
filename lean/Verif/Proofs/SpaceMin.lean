import Verif.Model.SpaceMin
import Verif.Props.Standardize

/-! Helper lemmas on space-optimal patterns. -/

namespace Graphix

open scoped symmDiff

/-- The nodes of a standardized pattern. -/
def StdPattern.nodeList (sp : StdPattern) : List ℕ := sp.inputs ++ sp.nList.map Prod.fst

/-- The nodes measured by a standardized pattern, in order. -/
def StdPattern.measNodes (sp : StdPattern) : List ℕ := sp.mList.map MCmd.node

/-- Well-formed standardized patterns: distinct nodes, simple edges between nodes, each node measured
at most once and depending only on earlier measurements, outputs are the unmeasured nodes, corrections
are on outputs and depend on measured nodes.  `from_pattern` returns such patterns
(`fromPattern_wf`). -/
structure StdPattern.WF (sp : StdPattern) : Prop where
  nodes_nodup : sp.nodeList.Nodup
  edge : ∀ e ∈ sp.eSet, ∀ k ∈ e, k ∈ sp.nodeList
  loop : ∀ e ∈ sp.eSet, ¬ e.IsDiag
  m_nodup : sp.measNodes.Nodup
  m_sub : ∀ n ∈ sp.measNodes, n ∈ sp.nodeList
  mo : MOrdered sp.mList
  out_nodup : sp.outputs.Nodup
  out : ∀ n, n ∈ sp.outputs ↔ n ∈ sp.nodeList ∧ n ∉ sp.measNodes
  nc : (PyDict.keys sp.cDict).Nodup
  nx : (PyDict.keys sp.xDict).Nodup
  nz : (PyDict.keys sp.zDict).Nodup
  lc : ∀ k ∈ PyDict.keys sp.cDict, k ∈ sp.outputs
  lx : ∀ k ∈ PyDict.keys sp.xDict, k ∈ sp.outputs
  lz : ∀ k ∈ PyDict.keys sp.zDict, k ∈ sp.outputs
  dx : ∀ k, ∀ i ∈ domAt sp.xDict k, i ∈ sp.measNodes
  dz : ∀ k, ∀ i ∈ domAt sp.zDict k, i ∈ sp.measNodes

theorem fromPattern_wf {p : Pattern} (hp : p.OutputsOk) (hE : NoSelfLoop p.seq) {sp : StdPattern}
    (h : StdPattern.fromPattern p = .ok sp) : sp.WF := by
  have hi := fromPattern_inv hE h
  obtain ⟨hR, -, e1, e2⟩ := fromPattern_ok h
  have en : sp.nodeList = introduced p.inputs p.seq := by
    unfold StdPattern.nodeList introduced; rw [e1, hi.nl]
  have em : sp.measNodes = measuredIn p.seq := hi.ml
  have lo : ∀ {k}, Live p.inputs p.seq k → k ∈ sp.outputs := by
    intro k hk; rw [e2]; exact (hp.outputs k).2 hk
  refine ⟨?_, ?_, hi.loop, ?_, ?_, hi.mo, ?_, ?_, hi.nc, hi.nx, hi.nz, fun k hk => lo (hi.lc k hk),
    fun k hk => lo (hi.lx k hk), fun k hk => lo (hi.lz k hk), ?_, ?_⟩
  · rw [en]; exact hR.introduced_nodup hp.inputs_nodup
  · rw [en]; exact hi.edge
  · rw [em]; exact hR.measured_nodup
  · rw [em, en]; exact hR.measured_sub
  · rw [e2]; exact hp.outputs_nodup
  · intro n; rw [e2, en, em]; exact hp.outputs n
  · rw [em]; exact hi.dx
  · rw [em]; exact hi.dz

/-! ### Order-free preparations -/

/-- Prepare every node of a set, node `n` in state `W n`. -/
noncomputable def prepSet (W : ℕ → Bool → ℂ) (I : Finset ℕ) (ψ : QState) : QState :=
  fun b => (∏ n ∈ I, W n (b n)) * ψ b

theorem prepSet_insert (W : ℕ → Bool → ℂ) {I : Finset ℕ} {n : ℕ} (h : n ∉ I) (ψ : QState) :
    prepSet W (insert n I) ψ = prep n (W n) (prepSet W I ψ) := by
  funext b; simp only [prepSet, prep]; rw [Finset.prod_insert h]; ring

theorem prep_czSet' (E : Finset (Sym2 ℕ)) (n : ℕ) (w : Bool → ℂ) (ψ : QState) :
    prep n w (czSet E ψ) = czSet E (prep n w ψ) := czSet_prep E n w ψ

theorem czSet_insert {E : Finset (Sym2 ℕ)} {u v : ℕ} (h : s(u, v) ∉ E) (ψ : QState) :
    czSet (insert s(u, v) E) ψ = cz u v (czSet E ψ) := by
  funext b; rw [cz_eq_sign]; simp only [czSet]; rw [Finset.prod_insert h]; ring

/-- Node of a local command (`M`, `X`, `Z`, `C`). -/
def Command.local? : Command → Option ℕ
  | .M n _ _ _ => some n
  | .X n _ => some n
  | .Z n _ => some n
  | .C n _ => some n
  | _ => none

/-- The local commands of a sequence. -/
def localPart (l : List Command) : List Command := l.filter (fun c => c.local?.isSome)

theorem localPart_append (l l' : List Command) : localPart (l ++ l') = localPart l ++ localPart l' := by
  simp [localPart]

theorem sem_local_prep (r : ℕ → Bool) {c : Command} {k n : ℕ} (hc : c.local? = some k) (h : n ≠ k)
    (w : Bool → ℂ) (ψ : QState) : prep n w (c.sem r ψ) = c.sem r (prep n w ψ) := by
  cases c <;> simp only [Command.local?, Option.some.injEq, reduceCtorEq] at hc <;> subst hc <;>
    simp only [Command.sem, projOut_eq_op1, prep_op1_of_ne _ h]

theorem sem_local_cz (r : ℕ → Bool) {c : Command} {k u v : ℕ} (hc : c.local? = some k) (hu : u ≠ k)
    (hv : v ≠ k) (ψ : QState) : cz u v (c.sem r ψ) = c.sem r (cz u v ψ) := by
  cases c <;> simp only [Command.local?, Option.some.injEq, reduceCtorEq] at hc <;> subst hc <;>
    simp only [Command.sem, projOut_eq_op1, cz_op1_of_ne _ hu hv]

theorem semCmds_local_prep (r : ℕ → Bool) (l : List Command) {n : ℕ}
    (h : ∀ c ∈ l, ∃ k, c.local? = some k ∧ n ≠ k) (w : Bool → ℂ) (ψ : QState) :
    prep n w (semCmds r l ψ) = semCmds r l (prep n w ψ) := by
  induction l generalizing ψ with
  | nil => rfl
  | cons c l ih =>
    obtain ⟨k, hk, hn⟩ := h c (by simp)
    rw [semCmds_cons, semCmds_cons, ih (fun c hc => h c (by simp [hc])), sem_local_prep r hk hn]

theorem semCmds_local_cz (r : ℕ → Bool) (l : List Command) {u v : ℕ}
    (h : ∀ c ∈ l, ∃ k, c.local? = some k ∧ u ≠ k ∧ v ≠ k) (ψ : QState) :
    cz u v (semCmds r l ψ) = semCmds r l (cz u v ψ) := by
  induction l generalizing ψ with
  | nil => rfl
  | cons c l ih =>
    obtain ⟨k, hk, hn⟩ := h c (by simp)
    rw [semCmds_cons, semCmds_cons, ih (fun c hc => h c (by simp [hc])), sem_local_cz r hk hn.1 hn.2]

/-! ### The invariant of `standardized_to_space_optimal_pattern` -/

/-- Preparation vector of a node. -/
noncomputable def StdPattern.prepVec (sp : StdPattern) (n : ℕ) : Bool → ℂ :=
  match PyDict.get? sp.nDict n with
  | some s => s.vec
  | none => fun _ => 1

structure OptInv (sp : StdPattern) (F : Finset (Sym2 ℕ)) (st : OptState) : Prop where
  sem : ∀ r ψ, semCmds r st.seq ψ = semCmds r (localPart st.seq)
    (czSet F (prepSet sp.prepVec (st.initialized \ sp.inputs.toFinset) ψ))
  loc : ∀ c ∈ localPart st.seq, ∃ k ∈ st.done, c.local? = some k
  inp : sp.inputs.toFinset ⊆ st.initialized
  done_sub : st.done ⊆ st.initialized
  init_sub : ∀ n ∈ st.initialized, n ∈ sp.nodeList
  intro : (introduced sp.inputs st.seq).toFinset = st.initialized
  meas_done : ∀ n ∈ measuredIn st.seq, n ∈ st.done
  run : Runnable sp.inputs st.seq
  edges : ∀ e, e ∈ st.seq.filterMap Command.edge? ↔ e ∈ F

theorem nDict_get (sp : StdPattern) (h : sp.nodeList.Nodup) :
    ∀ n ∈ sp.nList, PyDict.get? sp.nDict n.1 = some n.2 := by
  have hnd : (sp.nList.map Prod.fst).Nodup := (List.nodup_append.1 h).2.1
  unfold StdPattern.nDict
  have key : ∀ (l : List (ℕ × PlanarState)) (d : PyDict ℕ PlanarState), (l.map Prod.fst).Nodup →
      (∀ n ∈ l, PyDict.get? (l.foldl (fun d n => PyDict.set d n.1 n.2) d) n.1 = some n.2) ∧
      (∀ k, k ∉ l.map Prod.fst →
        PyDict.get? (l.foldl (fun d n => PyDict.set d n.1 n.2) d) k = PyDict.get? d k) := by
    intro l
    induction l with
    | nil => intro d _; exact ⟨by simp, fun _ _ => rfl⟩
    | cons a l ih =>
      intro d hd
      simp only [List.map_cons, List.nodup_cons] at hd
      obtain ⟨h1, h2⟩ := ih (PyDict.set d a.1 a.2) hd.2
      refine ⟨?_, ?_⟩
      · intro n hn
        rcases List.mem_cons.1 hn with rfl | hn
        · simp only [List.foldl_cons]
          rw [h2 _ hd.1, PyDict.get?_set]; simp
        · exact h1 n hn
      · intro k hk
        simp only [List.map_cons, List.mem_cons, not_or] at hk
        simp only [List.foldl_cons]
        rw [h2 k hk.2, PyDict.get?_set, if_neg (Ne.symm hk.1)]
  exact (key sp.nList [] hnd).1

theorem nDict_get_of_mem {sp : StdPattern} (hw : sp.WF) {n : ℕ} (h : n ∈ sp.nodeList)
    (hi : n ∉ sp.inputs) : ∃ s, PyDict.get? sp.nDict n = some s ∧ (n, s) ∈ sp.nList := by
  unfold StdPattern.nodeList at h
  rcases List.mem_append.1 h with h | h
  · exact absurd h hi
  · obtain ⟨⟨a, s⟩, ha, rfl⟩ := List.mem_map.1 h
    exact ⟨s, nDict_get sp hw.nodes_nodup _ ha, ha⟩

theorem ensureActive_inv {sp : StdPattern} (hw : sp.WF) {F : Finset (Sym2 ℕ)} {st : OptState}
    (h : OptInv sp F st) {n : ℕ} (hn : n ∈ sp.nodeList) :
    ∃ st', st.ensureActive sp.nDict n = .ok st' ∧ OptInv sp F st' ∧
      st'.initialized = insert n st.initialized ∧ st'.done = st.done ∧
      localPart st'.seq = localPart st.seq ∧ measuredIn st'.seq = measuredIn st.seq := by
  unfold OptState.ensureActive
  by_cases hi : n ∈ st.initialized
  · rw [if_pos hi]
    exact ⟨st, rfl, h, (Finset.insert_eq_of_mem hi).symm, rfl, rfl, rfl⟩
  · rw [if_neg hi]
    have hin : n ∉ sp.inputs := fun h' => hi (h.inp (by simpa using h'))
    obtain ⟨s, hs, -⟩ := nDict_get_of_mem hw hn hin
    rw [hs]
    have hlp : localPart (st.seq ++ [.N n s]) = localPart st.seq := by
      simp [localPart_append, localPart, Command.local?]
    have hms : measuredIn (st.seq ++ [.N n s]) = measuredIn st.seq := by
      rw [measuredIn_append]; simp [List.filterMap_cons, Command.measured?]
    refine ⟨_, rfl, ⟨?_, ?_, ?_, ?_, ?_, ?_, ?_, ?_, ?_⟩, rfl, rfl, hlp, hms⟩
    · intro r ψ
      rw [semCmds_snoc, hlp, h.sem r ψ]
      have e : insert n st.initialized \ sp.inputs.toFinset =
          insert n (st.initialized \ sp.inputs.toFinset) := by
        rw [Finset.insert_sdiff_of_notMem]; simpa using hin
      have hn' : n ∉ st.initialized \ sp.inputs.toFinset := fun h' => hi (Finset.mem_sdiff.1 h').1
      simp only [Command.sem]
      rw [e, prepSet_insert _ hn', semCmds_local_prep, czSet_prep]
      · unfold StdPattern.prepVec; rw [hs]
      · intro c hc
        obtain ⟨k, hk, hk'⟩ := h.loc c hc
        exact ⟨k, hk', fun e => hi (h.done_sub (e ▸ hk))⟩
    · rw [hlp]; exact h.loc
    · exact h.inp.trans (Finset.subset_insert _ _)
    · exact h.done_sub.trans (Finset.subset_insert _ _)
    · intro k hk
      rcases Finset.mem_insert.1 hk with rfl | hk
      · exact hn
      · exact h.init_sub k hk
    · rw [introduced_append, List.toFinset_append, h.intro]
      simp only [List.filterMap_cons, Command.prepared?, List.filterMap_nil]
      ext k; simp [or_comm]
    · rw [hms]; exact h.meas_done
    · refine h.run.snoc ?_
      change n ∉ introduced sp.inputs st.seq
      rw [← List.mem_toFinset, h.intro]; exact hi
    · intro e
      rw [List.filterMap_append]
      simp only [List.filterMap_cons, Command.edge?, List.filterMap_nil, List.append_nil]
      exact h.edges e

theorem link_inv {sp : StdPattern} (hw : sp.WF) {F : Finset (Sym2 ℕ)} {st : OptState}
    (h : OptInv sp F st) {n v : ℕ} (hn : n ∈ st.initialized) (hnd : n ∉ st.done)
    (hv : v ∈ sp.nodeList) (hF : v ∉ st.done → s(n, v) ∉ F) :
    ∃ st', OptState.linkNeighbor sp.nDict n st v = .ok st' ∧
      OptInv sp (if v ∈ st.done then F else insert s(n, v) F) st' ∧
      st'.initialized = insert v st.initialized ∧ st'.done = st.done ∧
      localPart st'.seq = localPart st.seq ∧ measuredIn st'.seq = measuredIn st.seq := by
  unfold OptState.linkNeighbor
  by_cases hd : v ∈ st.done
  · rw [if_pos hd, if_pos hd]
    exact ⟨st, rfl, h, (Finset.insert_eq_of_mem (h.done_sub hd)).symm, rfl, rfl, rfl⟩
  · rw [if_neg hd, if_neg hd]
    obtain ⟨st1, h1, hi1, e1, e2, e3, e4⟩ := ensureActive_inv hw h hv
    rw [h1]
    have hlp : localPart (st1.seq ++ [.E n v]) = localPart st1.seq := by
      simp [localPart_append, localPart, Command.local?]
    have hms : measuredIn (st1.seq ++ [.E n v]) = measuredIn st1.seq := by
      rw [measuredIn_append]; simp [List.filterMap_cons, Command.measured?]
    have hn1 : n ∈ st1.initialized := by rw [e1]; exact Finset.mem_insert_of_mem hn
    have hv1 : v ∈ st1.initialized := by rw [e1]; exact Finset.mem_insert_self _ _
    refine ⟨_, rfl, ⟨?_, ?_, hi1.inp, hi1.done_sub, hi1.init_sub, ?_, ?_, ?_, ?_⟩, e1, e2,
      hlp.trans e3, hms.trans e4⟩
    · intro r ψ
      simp only
      rw [semCmds_snoc, hlp, hi1.sem r ψ, czSet_insert (hF hd)]
      simp only [Command.sem]
      rw [semCmds_local_cz]
      intro c hc
      obtain ⟨k, hk, hk'⟩ := hi1.loc c hc
      rw [e2] at hk
      exact ⟨k, hk', fun e => hnd (e ▸ hk), fun e => hd (e ▸ hk)⟩
    · simp only [hlp]; exact hi1.loc
    · simp only [introduced_append]
      simpa [List.filterMap_cons, Command.prepared?] using hi1.intro
    · simp only [hms]; exact hi1.meas_done
    · refine hi1.run.snoc ?_
      refine ⟨⟨?_, ?_⟩, ⟨?_, ?_⟩⟩
      · rw [← List.mem_toFinset, hi1.intro]; exact hn1
      · intro hm; have := hi1.meas_done n hm; rw [e2] at this; exact hnd this
      · rw [← List.mem_toFinset, hi1.intro]; exact hv1
      · intro hm; have := hi1.meas_done v hm; rw [e2] at this; exact hd this
    · intro e
      simp only [List.filterMap_append, List.mem_append]
      rw [hi1.edges e, Finset.mem_insert]
      simp only [List.filterMap_cons, Command.edge?, List.filterMap_nil, List.mem_singleton]
      exact or_comm

theorem links_inv {sp : StdPattern} (hw : sp.WF) {n : ℕ} (l : List ℕ) :
    ∀ {F : Finset (Sym2 ℕ)} {st : OptState}, OptInv sp F st → n ∈ st.initialized → n ∉ st.done →
    (∀ v ∈ l, v ∈ sp.nodeList) → l.Nodup → (∀ v ∈ l, v ∉ st.done → s(n, v) ∉ F) →
    ∃ st', l.foldlM (OptState.linkNeighbor sp.nDict n) st = .ok st' ∧
      OptInv sp (F ∪ ((l.filter (fun v => v ∉ st.done)).map (fun v => s(n, v))).toFinset) st' ∧
      st'.initialized = st.initialized ∪ l.toFinset ∧ st'.done = st.done ∧
      localPart st'.seq = localPart st.seq ∧ measuredIn st'.seq = measuredIn st.seq := by
  induction l with
  | nil =>
    intro F st h _ _ _ _ _
    exact ⟨st, rfl, by simpa using h, by simp, rfl, rfl, rfl⟩
  | cons v l ih =>
    intro F st h hn hnd hl hnod hF
    simp only [List.nodup_cons] at hnod
    obtain ⟨st1, h1, i1, e1, e2, e3, e4⟩ := link_inv hw h hn hnd (hl v (by simp)) (hF v (by simp))
    have hF1 : ∀ w ∈ l, w ∉ st1.done → s(n, w) ∉ (if v ∈ st.done then F else insert s(n, v) F) := by
      intro w hw1 hwd
      rw [e2] at hwd
      have := hF w (by simp [hw1]) hwd
      split
      · exact this
      · rw [Finset.mem_insert, not_or]
        refine ⟨fun e => ?_, this⟩
        rw [Sym2.eq_iff] at e
        rcases e with ⟨-, e⟩ | ⟨e, e'⟩
        · exact hnod.1 (e ▸ hw1)
        · exact hnod.1 ((e'.trans e) ▸ hw1)
    obtain ⟨st2, h2, i2, f1, f2, f3, f4⟩ := ih i1 (by rw [e1]; exact Finset.mem_insert_of_mem hn)
      (by rw [e2]; exact hnd) (fun w hw' => hl w (by simp [hw'])) hnod.2 hF1
    refine ⟨st2, ?_, ?_, ?_, f2.trans e2, f3.trans e3, f4.trans e4⟩
    · rw [List.foldlM_cons, h1]; exact h2
    · rw [e2] at i2
      have : (if v ∈ st.done then F else insert s(n, v) F) ∪
          ((l.filter (fun v => v ∉ st.done)).map (fun v => s(n, v))).toFinset =
          F ∪ (((v :: l).filter (fun v => v ∉ st.done)).map (fun v => s(n, v))).toFinset := by
        by_cases hv : v ∈ st.done
        · simp [hv]
        · simp [hv]
      rw [← this]; exact i2
    · rw [f1, e1]; ext x; simp only [Finset.mem_union, Finset.mem_insert, List.mem_toFinset,
        List.mem_cons]; tauto

/-- Edges with an endpoint in `D`. -/
def touching (E : Finset (Sym2 ℕ)) (D : Finset ℕ) : Finset (Sym2 ℕ) :=
  E.filter (fun e => ∃ k ∈ D, k ∈ e)

theorem neighborhood_inv {sp : StdPattern} (hw : sp.WF) {nbr : ℕ → List ℕ} (hb : NbrOk sp.eSet nbr)
    {st : OptState} (h : OptInv sp (touching sp.eSet st.done) st) {n : ℕ} (hn : n ∈ sp.nodeList)
    (hnd : n ∉ st.done) :
    ∃ st', st.ensureNeighborhood sp.nDict nbr n = .ok st' ∧
      OptInv sp (touching sp.eSet (insert n st.done)) st' ∧
      st'.initialized = insert n st.initialized ∪ (nbr n).toFinset ∧ st'.done = st.done ∧
      localPart st'.seq = localPart st.seq ∧ measuredIn st'.seq = measuredIn st.seq := by
  obtain ⟨st1, h1, i1, e1, e2, e3, e4⟩ := ensureActive_inv hw h hn
  have hnbr : ∀ v ∈ nbr n, v ∈ sp.nodeList := by
    intro v hv
    exact hw.edge _ (((hb n).2 v).1 hv) v (Sym2.mem_mk_right _ _)
  obtain ⟨st2, h2, i2, f1, f2, f3, f4⟩ := links_inv hw (nbr n) i1 (n := n)
    (by rw [e1]; exact Finset.mem_insert_self _ _) (by rw [e2]; exact hnd) hnbr (hb n).1 (by
      intro v _ hvd
      rw [e2] at hvd
      intro hmem
      obtain ⟨-, k, hk, hke⟩ := Finset.mem_filter.1 hmem
      rw [Sym2.mem_iff] at hke
      rcases hke with rfl | rfl
      · exact hnd hk
      · exact hvd hk)
  refine ⟨st2, ?_, ?_, by rw [f1, e1], f2.trans e2, f3.trans e3, f4.trans e4⟩
  · unfold OptState.ensureNeighborhood; rw [h1]; exact h2
  · rw [e2] at i2
    have : touching sp.eSet st.done ∪
        (((nbr n).filter (fun v => v ∉ st.done)).map (fun v => s(n, v))).toFinset =
        touching sp.eSet (insert n st.done) := by
      ext e
      simp only [touching, Finset.mem_union, Finset.mem_filter, List.mem_toFinset, List.mem_map,
        List.mem_filter, decide_eq_true_eq, Finset.mem_insert]
      constructor
      · rintro (⟨h1, k, hk, hke⟩ | ⟨v, ⟨hv, -⟩, rfl⟩)
        · exact ⟨h1, k, Or.inr hk, hke⟩
        · exact ⟨((hb n).2 v).1 hv, n, Or.inl rfl, Sym2.mem_mk_left _ _⟩
      · rintro ⟨h1, k, rfl | hk, hke⟩
        · obtain ⟨v, rfl⟩ := Sym2.mem_iff_exists.1 hke
          by_cases hv : v ∈ st.done
          · exact Or.inl ⟨h1, v, hv, Sym2.mem_mk_right _ _⟩
          · exact Or.inr ⟨v, ⟨((hb k).2 v).2 h1, hv⟩, rfl⟩
        · exact Or.inl ⟨h1, k, hk, hke⟩
    rw [← this]; exact i2

/-- Adding a block of local commands on `n` after its neighbourhood. -/
theorem block_inv {sp : StdPattern} {st st' : OptState} {F : Finset (Sym2 ℕ)} (i : OptInv sp F st') {n : ℕ}
    (hd : st'.done = st.done) (hn : n ∈ st'.initialized) {l : List Command}
    (hl : ∀ c ∈ l, c.local? = some n)
    (hr : Runnable sp.inputs (st'.seq ++ l)) :
    OptInv sp F { st' with seq := st'.seq ++ l, done := insert n st'.done } := by
  have hlp : localPart l = l := by
    unfold localPart; rw [List.filter_eq_self]; intro c hc; rw [hl c hc]; rfl
  have hp : l.filterMap Command.prepared? = [] := by
    rw [List.filterMap_eq_nil_iff]; intro c hc; have := hl c hc; cases c <;> simp_all [Command.local?, Command.prepared?]
  have he : l.filterMap Command.edge? = [] := by
    rw [List.filterMap_eq_nil_iff]; intro c hc; have := hl c hc; cases c <;> simp_all [Command.local?, Command.edge?]
  have hm : ∀ k ∈ l.filterMap Command.measured?, k = n := by
    intro k hk
    obtain ⟨c, hc, hck⟩ := List.mem_filterMap.1 hk
    have := hl c hc
    cases c <;> simp_all [Command.local?, Command.measured?]
  refine ⟨?_, ?_, i.inp, ?_, i.init_sub, ?_, ?_, hr, ?_⟩
  · intro r ψ
    simp only [localPart_append, hlp, semCmds_append]
    rw [i.sem]
  · intro c hc
    simp only [localPart_append, hlp, List.mem_append] at hc
    rcases hc with hc | hc
    · obtain ⟨k, hk, hk'⟩ := i.loc c hc
      exact ⟨k, Finset.mem_insert_of_mem hk, hk'⟩
    · exact ⟨n, Finset.mem_insert_self _ _, hl c hc⟩
  · intro k hk
    rcases Finset.mem_insert.1 hk with rfl | hk
    · exact hn
    · exact i.done_sub hk
  · simp only [introduced_append, hp, List.append_nil]; exact i.intro
  · intro k hk
    simp only [measuredIn_append, List.mem_append] at hk
    rcases hk with hk | hk
    · exact Finset.mem_insert_of_mem (i.meas_done k hk)
    · rw [hm k hk]; exact Finset.mem_insert_self _ _
  · intro e
    simp only [List.filterMap_append, he, List.append_nil]
    exact i.edges e

theorem optMeasure_inv {sp : StdPattern} (hw : sp.WF) {nbr : ℕ → List ℕ} (hb : NbrOk sp.eSet nbr)
    {st : OptState} (h : OptInv sp (touching sp.eSet st.done) st) {a c : List MCmd} {m : MCmd}
    (hm : sp.mList = a ++ m :: c) (hms : measuredIn st.seq = a.map MCmd.node)
    (hnd : m.node ∉ st.done) :
    ∃ st', sp.optMeasure nbr st m = .ok st' ∧ OptInv sp (touching sp.eSet st'.done) st' ∧
      st'.initialized = insert m.node st.initialized ∪ (nbr m.node).toFinset ∧
      st'.done = insert m.node st.done ∧ localPart st'.seq = localPart st.seq ++ [m.toCmd] ∧
      measuredIn st'.seq = (a ++ [m]).map MCmd.node := by
  have hmem : m.node ∈ sp.nodeList := by
    apply hw.m_sub; unfold StdPattern.measNodes; rw [hm]; simp
  obtain ⟨st1, h1, i1, e1, e2, e3, e4⟩ := neighborhood_inv hw hb h hmem hnd
  have hin : m.node ∈ st1.initialized := by rw [e1]; simp
  have hmo := hw.mo a m c hm
  refine ⟨{ st1 with seq := st1.seq ++ [m.toCmd], done := insert m.node st1.done }, ?_, ?_, e1,
    by simp only [e2], ?_, ?_⟩
  · unfold StdPattern.optMeasure; rw [h1]; rfl
  · simp only [e2]
    have := block_inv (st := st) (l := [m.toCmd]) i1 e2 hin (by simp [MCmd.toCmd, Command.local?]) (by
      refine i1.run.snoc ⟨⟨?_, ?_⟩, ?_, ?_⟩
      · rw [← List.mem_toFinset, i1.intro]; exact hin
      · intro hmm; have := i1.meas_done _ hmm; rw [e2] at this; exact hnd this
      · rw [e4, hms]; exact hmo.1
      · rw [e4, hms]; exact hmo.2)
    rw [e2] at this; exact this
  · simp only [localPart_append, e3]; rfl
  · simp only [measuredIn_append, e4, hms, List.map_append]; rfl

theorem optMeasures_inv {sp : StdPattern} (hw : sp.WF) {nbr : ℕ → List ℕ} (hb : NbrOk sp.eSet nbr)
    (l : List MCmd) : ∀ {st : OptState} {a : List MCmd}, OptInv sp (touching sp.eSet st.done) st →
    sp.mList = a ++ l → measuredIn st.seq = a.map MCmd.node → st.done = (a.map MCmd.node).toFinset →
    localPart st.seq = a.map MCmd.toCmd →
    ∃ st', l.foldlM (sp.optMeasure nbr) st = .ok st' ∧ OptInv sp (touching sp.eSet st'.done) st' ∧
      measuredIn st'.seq = sp.measNodes ∧ st'.done = sp.measNodes.toFinset ∧
      localPart st'.seq = sp.mList.map MCmd.toCmd := by
  induction l with
  | nil =>
    intro st a h hm h1 h2 h3
    rw [List.append_nil] at hm
    exact ⟨st, rfl, h, by rw [h1, StdPattern.measNodes, hm], by rw [h2, StdPattern.measNodes, hm],
      by rw [h3, hm]⟩
  | cons m l ih =>
    intro st a h hm h1 h2 h3
    have hnd : m.node ∉ st.done := by
      rw [h2, List.mem_toFinset]
      have := hw.m_nodup
      unfold StdPattern.measNodes at this
      rw [hm, List.map_append, List.map_cons] at this
      exact fun hmem => (List.nodup_append.1 this).2.2 _ hmem _ (by simp) rfl
    obtain ⟨st1, e0, i1, -, e2, e3, e4⟩ := optMeasure_inv hw hb h hm h1 hnd
    obtain ⟨st2, f0, i2, f1, f2, f3⟩ := ih (a := a ++ [m]) i1 (by simp [hm]) e4
      (by rw [e2, h2]; ext; simp [or_comm]) (by rw [e3, h3]; simp)
    exact ⟨st2, by rw [List.foldlM_cons, e0]; exact f0, i2, f1, f2, f3⟩

theorem optCorrections_local (sp : StdPattern) (n : ℕ) :
    ∀ c ∈ sp.optCorrections n, c.local? = some n ∧ c.measured? = none := by
  intro c hc
  unfold StdPattern.optCorrections at hc
  simp only [List.mem_append] at hc
  rcases hc with (hc | hc) | hc
  · split at hc
    · split at hc
      · simp only [List.mem_singleton] at hc; subst hc; exact ⟨rfl, rfl⟩
      · simp at hc
    · simp at hc
  · split at hc
    · split at hc
      · simp only [List.mem_singleton] at hc; subst hc; exact ⟨rfl, rfl⟩
      · simp at hc
    · simp at hc
  · split at hc
    · simp only [List.mem_singleton] at hc; subst hc; exact ⟨rfl, rfl⟩
    · simp at hc

theorem optCorrections_allowed {sp : StdPattern} (hw : sp.WF) {n : ℕ} {seq : List Command}
    (hr : Runnable sp.inputs seq) (hl : Live sp.inputs seq n) (hm : measuredIn seq = sp.measNodes) :
    Runnable sp.inputs (seq ++ sp.optCorrections n) := by
  refine Runnable.append hr ?_
  intro a c b hab
  have hloc := optCorrections_local sp n
  have hpa : a.filterMap Command.prepared? = [] := by
    rw [List.filterMap_eq_nil_iff]; intro c hc
    have := (hloc c (by rw [hab]; simp [hc])).1
    cases c <;> simp_all [Command.local?, Command.prepared?]
  have hma : a.filterMap Command.measured? = [] := by
    rw [List.filterMap_eq_nil_iff]; intro c hc
    exact (hloc c (by rw [hab]; simp [hc])).2
  have hl' : Live sp.inputs (seq ++ a) n := by
    unfold Live at *
    rw [introduced_append, measuredIn_append, hpa, hma, List.append_nil, List.append_nil]; exact hl
  have hm' : measuredIn (seq ++ a) = sp.measNodes := by
    rw [measuredIn_append, hma, List.append_nil, hm]
  have hc : c ∈ sp.optCorrections n := by rw [hab]; simp
  unfold StdPattern.optCorrections at hc
  simp only [List.mem_append] at hc
  rcases hc with (hc | hc) | hc
  · split at hc
    · rename_i d hd
      split at hc
      · simp only [List.mem_singleton] at hc; subst hc
        refine ⟨hl', ?_⟩
        rw [hm']
        have := hw.dz n
        unfold domAt at this; rwa [hd] at this
      · simp at hc
    · simp at hc
  · split at hc
    · rename_i d hd
      split at hc
      · simp only [List.mem_singleton] at hc; subst hc
        refine ⟨hl', ?_⟩
        rw [hm']
        have := hw.dx n
        unfold domAt at this; rwa [hd] at this
      · simp at hc
    · simp at hc
  · split at hc
    · simp only [List.mem_singleton] at hc; subst hc; exact hl'
    · simp at hc

theorem optOutputs_inv {sp : StdPattern} (hw : sp.WF) {nbr : ℕ → List ℕ} (hb : NbrOk sp.eSet nbr)
    (l : List ℕ) : ∀ {st : OptState} {a : List ℕ}, OptInv sp (touching sp.eSet st.done) st →
    sp.outputs = a ++ l → measuredIn st.seq = sp.measNodes →
    st.done = sp.measNodes.toFinset ∪ a.toFinset →
    localPart st.seq = sp.mList.map MCmd.toCmd ++ a.flatMap sp.optCorrections →
    ∃ st', l.foldlM (sp.optOutput nbr) st = .ok st' ∧ OptInv sp (touching sp.eSet st'.done) st' ∧
      measuredIn st'.seq = sp.measNodes ∧ st'.done = sp.measNodes.toFinset ∪ sp.outputs.toFinset ∧
      localPart st'.seq = sp.mList.map MCmd.toCmd ++ sp.outputs.flatMap sp.optCorrections := by
  induction l with
  | nil =>
    intro st a h ho h1 h2 h3
    rw [List.append_nil] at ho; rw [ho]
    exact ⟨st, rfl, h, h1, h2, h3⟩
  | cons n l ih =>
    intro st a h ho h1 h2 h3
    have hno : n ∈ sp.outputs := by rw [ho]; simp
    have hn' := (hw.out n).1 hno
    have hnd : n ∉ st.done := by
      rw [h2, Finset.mem_union, List.mem_toFinset, List.mem_toFinset, not_or]
      refine ⟨hn'.2, fun hmem => ?_⟩
      have := hw.out_nodup
      rw [ho] at this
      exact (List.nodup_append.1 this).2.2 _ hmem _ (by simp) rfl
    obtain ⟨st1, g1, i1, e1, e2, e3, e4⟩ := neighborhood_inv hw hb h hn'.1 hnd
    have hin : n ∈ st1.initialized := by rw [e1]; simp
    have hlive : Live sp.inputs st1.seq n := by
      refine ⟨?_, ?_⟩
      · rw [← List.mem_toFinset, i1.intro]; exact hin
      · rw [e4, h1]; exact hn'.2
    have hmeas : measuredIn (st1.seq ++ sp.optCorrections n) = sp.measNodes := by
      rw [measuredIn_append, e4, h1]
      have : (sp.optCorrections n).filterMap Command.measured? = [] := by
        rw [List.filterMap_eq_nil_iff]; exact fun c hc => (optCorrections_local sp n c hc).2
      rw [this, List.append_nil]
    have i2 := block_inv (st := st) (l := sp.optCorrections n) i1 e2 hin
      (fun c hc => (optCorrections_local sp n c hc).1)
      (optCorrections_allowed hw i1.run hlive (by rw [e4, h1]))
    have hlp : localPart (sp.optCorrections n) = sp.optCorrections n := by
      unfold localPart; rw [List.filter_eq_self]; intro c hc
      rw [(optCorrections_local sp n c hc).1]; rfl
    obtain ⟨st2, f0, i3, f1, f2, f3⟩ := ih (a := a ++ [n])
      (st := { st1 with seq := st1.seq ++ sp.optCorrections n, done := insert n st1.done })
      (by simp only; rw [e2] at i2 ⊢; exact i2) (by simp [ho]) hmeas
      (by simp only; rw [e2, h2]; ext; simp)
      (by simp only [localPart_append, e3, h3, hlp, List.flatMap_append]; simp)
    refine ⟨st2, ?_, i3, f1, f2, f3⟩
    rw [List.foldlM_cons]
    have : sp.optOutput nbr st n = .ok
        { st1 with seq := st1.seq ++ sp.optCorrections n, done := insert n st1.done } := by
      unfold StdPattern.optOutput; rw [g1]; rfl
    rw [this]; exact f0

theorem optSeq_inv {sp : StdPattern} (hw : sp.WF) {nbr : ℕ → List ℕ} (hb : NbrOk sp.eSet nbr) :
    ∃ st, sp.optSeq nbr = .ok st ∧ OptInv sp sp.eSet st ∧ measuredIn st.seq = sp.measNodes ∧
      st.initialized = sp.nodeList.toFinset ∧
      localPart st.seq = sp.mList.map MCmd.toCmd ++ sp.outputs.flatMap sp.optCorrections := by
  have init : OptInv sp (touching sp.eSet ∅) ⟨[], sp.inputs.toFinset, ∅⟩ := by
    refine ⟨?_, by simp [localPart], by simp, by simp, ?_, by simp [introduced], by simp [measuredIn],
      runnable_nil _, by simp [touching]⟩
    · intro r ψ
      have : touching sp.eSet ∅ = ∅ := by simp [touching]
      simp only [this, czSet_empty]
      funext b; simp [localPart, prepSet]
    · intro n hn; unfold StdPattern.nodeList; simp at hn ⊢; exact Or.inl hn
  obtain ⟨st1, h1, i1, f1, f2, f3⟩ := optMeasures_inv (st := ⟨[], sp.inputs.toFinset, ∅⟩) hw hb sp.mList (a := []) init (by simp)
    (by simp [measuredIn]) (by simp) (by simp [localPart])
  obtain ⟨st2, h2, i2, g1, g2, g3⟩ := optOutputs_inv hw hb sp.outputs (a := []) i1 (by simp) f1
    (by simp [f2]) (by simp [f3])
  have hdone : ∀ n ∈ sp.nodeList, n ∈ st2.done := by
    intro n hn
    rw [g2, Finset.mem_union, List.mem_toFinset, List.mem_toFinset]
    by_cases hm : n ∈ sp.measNodes
    · exact Or.inl hm
    · exact Or.inr ((hw.out n).2 ⟨hn, hm⟩)
  have ht : touching sp.eSet st2.done = sp.eSet := by
    unfold touching
    rw [Finset.filter_eq_self]
    intro e he
    induction e with | _ u v =>
    exact ⟨u, hdone u (hw.edge _ he u (Sym2.mem_mk_left _ _)), Sym2.mem_mk_left _ _⟩
  refine ⟨st2, ?_, ht ▸ i2, g1, ?_, g3⟩
  · unfold StdPattern.optSeq; rw [h1]; exact h2
  · apply Finset.Subset.antisymm
    · intro n hn; exact List.mem_toFinset.2 (i2.init_sub n hn)
    · intro n hn; exact i2.done_sub (hdone n (List.mem_toFinset.1 hn))

/-! ### Final corrections -/

theorem corrOp_fold (r : ℕ → Bool) (outs : List ℕ) :
    ∀ {c : PyDict ℕ Clifford} {x z : PyDict ℕ (Finset ℕ)}, outs.Nodup →
    (PyDict.keys c).Nodup → (PyDict.keys x).Nodup → (PyDict.keys z).Nodup →
    (∀ k ∈ PyDict.keys c, k ∈ outs) → (∀ k ∈ PyDict.keys x, k ∈ outs) →
    (∀ k ∈ PyDict.keys z, k ∈ outs) → ∀ φ,
    corrOp r c x z φ = outs.foldl (fun ψ k => op1 (locOp r c x z k) k ψ) φ := by
  induction outs with
  | nil =>
    intro c x z _ _ _ _ hc hx hz φ
    have nil : ∀ {β : Type} {d : PyDict ℕ β}, (∀ k ∈ PyDict.keys d, k ∈ ([] : List ℕ)) → d = [] := by
      intro β d h
      cases d with
      | nil => rfl
      | cons kv d => exact absurd (h kv.1 (by simp [PyDict.keys])) (by simp)
    rw [nil hc, nil hx, nil hz]; rfl
  | cons k outs ih =>
    intro c x z ho nc nx nz hc hx hz φ
    simp only [List.nodup_cons] at ho
    have sub : ∀ {β : Type} {d : PyDict ℕ β}, (PyDict.keys d).Nodup →
        (∀ n ∈ PyDict.keys d, n ∈ k :: outs) → ∀ n ∈ PyDict.keys (PyDict.erase d k), n ∈ outs := by
      intro β d hd h n hn
      rw [PyDict.keys_erase] at hn
      have := hd.mem_erase_iff.1 hn
      rcases List.mem_cons.1 (h n this.2) with e | e
      · exact absurd e this.1
      · exact e
    rw [corrOp_split r nc nx nz k, ih ho.2 (keys_erase_nodup nc k) (keys_erase_nodup nx k)
      (keys_erase_nodup nz k) (sub nc hc) (sub nx hx) (sub nz hz), List.foldl_cons]
    apply List.foldl_ext
    intro ψ n hn
    have hne : k ≠ n := fun e => ho.1 (e ▸ hn)
    unfold locOp
    rw [dictVal_erase _ nc hne, dictVal_erase _ nx hne, dictVal_erase _ nz hne]

theorem semCmds_optCorrections (sp : StdPattern) (r : ℕ → Bool) (n : ℕ) (ψ : QState) :
    semCmds r (sp.optCorrections n) ψ = op1 (locOp r sp.cDict sp.xDict sp.zDict n) n ψ := by
  unfold StdPattern.optCorrections locOp
  rw [semCmds_append, semCmds_append, ← op1_mul, ← op1_mul, dictVal_gX, dictVal_gZ]
  have hz : ∀ ψ, semCmds r (match PyDict.get? sp.zDict n with
    | some d => if d ≠ ∅ then [Command.Z n d] else []
    | none => []) ψ = op1 (powB Ops.Z (parity r (domAt sp.zDict n))) n ψ := by
    intro ψ
    unfold domAt
    cases PyDict.get? sp.zDict n with
    | none => simp [parity_empty, powB_false, op1_one]
    | some d =>
      simp only [Option.getD_some]
      split
      · rfl
      · rename_i h; simp only [ne_eq, Decidable.not_not] at h
        simp [h, parity_empty, powB_false, op1_one]
  have hx : ∀ ψ, semCmds r (match PyDict.get? sp.xDict n with
    | some d => if d ≠ ∅ then [Command.X n d] else []
    | none => []) ψ = op1 (powB Ops.X (parity r (domAt sp.xDict n))) n ψ := by
    intro ψ
    unfold domAt
    cases PyDict.get? sp.xDict n with
    | none => simp [parity_empty, powB_false, op1_one]
    | some d =>
      simp only [Option.getD_some]
      split
      · rfl
      · rename_i h; simp only [ne_eq, Decidable.not_not] at h
        simp [h, parity_empty, powB_false, op1_one]
  have hc : ∀ ψ, semCmds r (match PyDict.get? sp.cDict n with
    | some c => [Command.C n c]
    | none => []) ψ = op1 (dictVal Clifford.matrix sp.cDict n) n ψ := by
    intro ψ
    unfold dictVal
    cases PyDict.get? sp.cDict n with
    | none => simp [op1_one]
    | some d => rfl
  refine (hc _).trans ?_
  congr 1
  refine (hx _).trans ?_
  congr 1
  exact hz _

theorem semCmds_outputs (sp : StdPattern) (r : ℕ → Bool) (l : List ℕ) (ψ : QState) :
    semCmds r (l.flatMap sp.optCorrections) ψ =
      l.foldl (fun ψ k => op1 (locOp r sp.cDict sp.xDict sp.zDict k) k ψ) ψ := by
  induction l generalizing ψ with
  | nil => rfl
  | cons n l ih => rw [List.flatMap_cons, semCmds_append, semCmds_optCorrections, ih]; rfl

theorem semCmds_nList {sp : StdPattern} (hw : sp.WF) (r : ℕ → Bool) (ψ : QState) :
    semCmds r (sp.nList.map nCmd) ψ =
      prepSet sp.prepVec (sp.nodeList.toFinset \ sp.inputs.toFinset) ψ := by
  have hs : sp.nodeList.toFinset \ sp.inputs.toFinset = (sp.nList.map Prod.fst).toFinset := by
    unfold StdPattern.nodeList
    rw [List.toFinset_append, Finset.union_sdiff_left, Finset.sdiff_eq_self_iff_disjoint,
      List.disjoint_toFinset_iff_disjoint]
    have := (List.nodup_append.1 hw.nodes_nodup).2.2
    intro a ha hb; exact this a hb a ha rfl
  rw [hs]
  have hget := nDict_get sp hw.nodes_nodup
  have hnd : (sp.nList.map Prod.fst).Nodup := (List.nodup_append.1 hw.nodes_nodup).2.1
  have key : ∀ (l : List (ℕ × PlanarState)) (ψ : QState), (∀ n ∈ l, PyDict.get? sp.nDict n.1 = some n.2) →
      (l.map Prod.fst).Nodup →
      semCmds r (l.map nCmd) ψ = prepSet sp.prepVec (l.map Prod.fst).toFinset ψ := by
    intro l
    induction l with
    | nil => intro ψ _ _; funext b; simp [prepSet]
    | cons n l ih =>
      intro ψ hg hn
      simp only [List.map_cons, List.nodup_cons] at hn
      simp only [List.map_cons, semCmds_cons, List.toFinset_cons]
      rw [ih _ (fun m hm => hg m (by simp [hm])) hn.2]
      rw [prepSet_insert _ (by simpa using hn.1)]
      have e : sp.prepVec n.1 = n.2.vec := by unfold StdPattern.prepVec; rw [hg n (by simp)]
      rw [e]
      funext b; simp only [nCmd, Command.sem, prep, prepSet]; ring
  exact key sp.nList ψ hget hnd

end Graphix
