import Verif.Spec.Workflow

/-! Lemmas on scripts of optimizations. -/

namespace Graphix

open scoped symmDiff

/-! ### `from_pattern` accepts tidy patterns -/

theorem StdBody.run_ok_of_last (l : List Command) : ∀ b : StdBody, (∀ n ∈ PyDict.keys b.cDict, ∀ c ∈ l, n ∉ c.actsOn) → CliffordsLast l →
    ∃ b', b.run l = .ok b' := by
  induction l with
  | nil => intro b _ _; exact ⟨b, rfl⟩
  | cons c l ih =>
    intro b hb hl
    obtain ⟨hc, hl'⟩ := List.pairwise_cons.1 hl
    have keep : ∀ b1 : StdBody, (∀ n ∈ PyDict.keys b1.cDict, n ∈ PyDict.keys b.cDict) → ∀ n ∈ PyDict.keys b1.cDict, ∀ c ∈ l, n ∉ c.actsOn :=
      fun b1 h n hn c hc => hb n (h n hn) c (by simp [hc])
    have none : ∀ n, n ∈ c.actsOn → PyDict.get? b.cDict n = none := by
      intro n hn
      rw [PyDict.get?_eq_none_iff]
      exact fun hk => hb n hk c (by simp) hn
    have key : ∃ b1, b.step c = .ok b1 ∧ ∀ n ∈ PyDict.keys b1.cDict, ∀ c ∈ l, n ∉ c.actsOn := by
      cases c with
      | N n st => exact ⟨_, rfl, keep _ fun _ h => h⟩
      | E u v =>
        have side : ∀ (b1 : StdBody) i j, PyDict.get? b1.cDict i = .none → ∃ b2, b1.edgeSide i j = .ok b2 ∧ b2.cDict = b1.cDict := by
          intro b1 i j hb1
          unfold StdBody.edgeSide
          rw [hb1]
          exact ⟨_, rfl, rfl⟩
        obtain ⟨b1, h1, h1'⟩ := side b u v (none u (by simp [Command.actsOn]))
        obtain ⟨b2, h2, h2'⟩ := side b1 v u (by rw [h1']; exact none v (by simp [Command.actsOn]))
        refine ⟨{ b2 with eSet := b2.eSet ∆ {s(u, v)} }, ?_, keep _ fun n hn => ?_⟩
        · change (b.edgeSide u v >>= fun b1 => b1.edgeSide v u >>= fun b2 => pure { b2 with eSet := b2.eSet ∆ {s(u, v)} }) = _
          rw [h1]; change (b1.edgeSide v u >>= _) = _; rw [h2]; rfl
        · simp only [h2', h1'] at hn; exact hn
      | M n m s t =>
        change ∃ b', b.measureCase ⟨n, m, s, t⟩ = .ok b' ∧ _
        unfold StdBody.measureCase
        simp only
        rw [none n (by simp [Command.actsOn])]
        refine ⟨_, rfl, keep _ fun k hk => ?_⟩
        simp only [PyDict.keys_erase] at hk
        exact List.mem_of_mem_erase hk
      | X n d =>
        change ∃ b', b.correctionCase n ⟨d, ∅⟩ = .ok b' ∧ _
        unfold StdBody.correctionCase
        obtain ⟨d', h, -⟩ := C04_commute_domains ((PyDict.get? b.cDict n).getD Clifford.I) ⟨d, ∅⟩
        rw [h]; exact ⟨_, rfl, keep _ fun _ h => h⟩
      | Z n d =>
        change ∃ b', b.correctionCase n ⟨∅, d⟩ = .ok b' ∧ _
        unfold StdBody.correctionCase
        obtain ⟨d', h, -⟩ := C04_commute_domains ((PyDict.get? b.cDict n).getD Clifford.I) ⟨∅, d⟩
        rw [h]; exact ⟨_, rfl, keep _ fun _ h => h⟩
      | C n g =>
        refine ⟨_, rfl, fun k hk c' hc' => ?_⟩
        simp only [PyDict.mem_keys_set] at hk
        rcases hk with rfl | hk
        · exact hc c' hc' _ g rfl
        · exact hb k hk c' (by simp [hc'])
      | S n d => exact ⟨_, rfl, keep _ fun _ h => h⟩
      | T => exact ⟨_, rfl, keep _ fun _ h => h⟩
    obtain ⟨b1, h1, h2⟩ := key
    obtain ⟨b', h'⟩ := ih b1 h2 hl'
    exact ⟨b', by change (b.step c >>= fun b => b.run l) = _; rw [h1]; exact h'⟩

theorem Tidy.fromPattern {p : Pattern} (h : Tidy p) : ∃ sp, StdPattern.fromPattern p = .ok sp := by
  obtain ⟨b, hb⟩ := StdBody.run_ok_of_last p.seq StdBody.init (by simp [StdBody.init, PyDict.keys]) h.cliffords
  refine ⟨{ b with inputs := p.inputs, outputs := p.outputs }, ?_⟩
  unfold StdPattern.fromPattern
  rw [h.runnable, hb]; rfl

/-! ### Patterns of standardized patterns are tidy -/

theorem cliffordsLast_append {l l' : List Command} (h : CliffordsLast l) (h' : CliffordsLast l')
    (hl : ∀ n g, Command.C n g ∈ l → ∀ c ∈ l', n ∉ c.actsOn) : CliffordsLast (l ++ l') :=
  List.pairwise_append.2 ⟨h, h', fun a ha b hb n g e => hl n g (e ▸ ha) b hb⟩

theorem cliffordsLast_of_none {l : List Command} (h : ∀ n g, Command.C n g ∉ l) : CliffordsLast l := by
  unfold CliffordsLast
  rw [List.pairwise_iff_forall_sublist]
  intro _ b hs n g e
  exact absurd (e ▸ hs.subset (by simp)) (h n g)

theorem cliffordsLast_of_all {l : List Command} (h : ∀ c ∈ l, c.actsOn = []) : CliffordsLast l := by
  unfold CliffordsLast
  rw [List.pairwise_iff_forall_sublist]
  intro a b hs n g _
  rw [h b (hs.subset (by simp))]
  simp

theorem cmds_last (sp : StdPattern) (edges : List (ℕ × ℕ)) : CliffordsLast (sp.cmds edges) := by
  unfold StdPattern.cmds
  refine cliffordsLast_append (cliffordsLast_of_none ?_) (cliffordsLast_of_all ?_) ?_
  · intro n g h
    simp [MCmd.toCmd] at h
  · intro c hc
    obtain ⟨kv, -, rfl⟩ := List.mem_map.1 hc
    rfl
  · intro n g h
    simp [MCmd.toCmd] at h

theorem tidy_of_std {sp : StdPattern} (hw : sp.WF) (hplus : ∀ n ∈ sp.nList, n.2 = PlanarState.plus) {edges : List (ℕ × ℕ)}
    (hen : StdPattern.Enumerates edges sp.eSet) {q : Pattern} (hq : sp.toPattern edges = .ok q) : Tidy q := by
  obtain ⟨q', hq', hf, hs⟩ := patternFor_std hw hen
  obtain rfl := Except.ok.inj (hq.symm.trans hq')
  obtain ⟨s1, s2, s3, s4, -⟩ := toPattern_ok hq
  refine ⟨⟨?_, ?_, ?_⟩, hf.run, ?_, ?_, ?_, ?_⟩
  · rw [s2]; exact (List.nodup_append.1 hw.nodes_nodup).1
  · rw [s3]; exact hw.out_nodup
  · intro n
    rw [s3, hw.out n]
    unfold Live
    rw [hf.intro n, hf.measured]
    unfold StdPattern.nodeList
    rw [List.mem_append]; rfl
  · intro n d h
    rw [s1] at h
    simp [StdPattern.cmds, MCmd.toCmd] at h
  · intro u v h
    rw [s1] at h
    simp only [StdPattern.cmds, MCmd.toCmd, List.mem_append, List.mem_map, reduceCtorEq, and_false, exists_false, false_or, or_false,
      Command.E.injEq] at h
    obtain ⟨e, he, rfl, rfl⟩ := h
    exact s4 e he
  · intro n st h
    rw [s1] at h
    simp only [StdPattern.cmds, MCmd.toCmd, List.mem_append, List.mem_map, reduceCtorEq, and_false, exists_false, or_false,
      Command.N.injEq] at h
    obtain ⟨e, he, rfl, rfl⟩ := h
    exact hplus e he
  · rw [s1]; exact cmds_last sp edges

/-- What holds of the sequence while `to_space_optimal_pattern` builds it. -/
structure OptTidy (st : OptState) : Prop where
  last : CliffordsLast st.seq
  plus : ∀ n s, Command.N n s ∈ st.seq → s = PlanarState.plus
  cliff : ∀ n g, Command.C n g ∈ st.seq → n ∈ st.done
  sub : st.done ⊆ st.initialized

theorem OptTidy.ensureActive {nd : PyDict ℕ PlanarState} (hnd : ∀ n s, nd.get? n = some s → s = PlanarState.plus) {st st' : OptState} {n : ℕ}
    (h : OptTidy st) (he : st.ensureActive nd n = .ok st') : OptTidy st' ∧ st'.done = st.done ∧ n ∈ st'.initialized := by
  unfold OptState.ensureActive at he
  split at he
  · rename_i hi
    cases he; exact ⟨h, rfl, hi⟩
  · rename_i hi
    split at he
    · cases he
    · rename_i s hs
      cases he
      refine ⟨⟨cliffordsLast_append h.last (cliffordsLast_of_none (by simp)) ?_, ?_, ?_, ?_⟩, rfl, by simp⟩
      · intro k g hk c hc
        simp only [List.mem_singleton] at hc
        subst hc
        simp only [Command.actsOn, List.mem_singleton]
        rintro rfl
        exact hi (h.sub (h.cliff _ g hk))
      · intro k s' hk
        simp only [List.mem_append, List.mem_singleton, Command.N.injEq] at hk
        rcases hk with hk | ⟨rfl, rfl⟩
        · exact h.plus _ _ hk
        · exact hnd _ _ hs
      · intro k g hk
        simp only [List.mem_append, List.mem_singleton, reduceCtorEq, or_false] at hk
        exact h.cliff k g hk
      · exact h.sub.trans (Finset.subset_insert _ _)

theorem OptTidy.link {nd : PyDict ℕ PlanarState} (hnd : ∀ n s, nd.get? n = some s → s = PlanarState.plus) {n : ℕ} (l : List ℕ) :
    ∀ {st st' : OptState}, OptTidy st → n ∉ st.done → l.foldlM (OptState.linkNeighbor nd n) st = .ok st' → OptTidy st' ∧ st'.done = st.done ∧
      (n ∈ st.initialized → n ∈ st'.initialized) := by
  induction l with
  | nil => intro st st' h _ he; cases he; exact ⟨h, rfl, id⟩
  | cons v l ih =>
    intro st st' h hn he
    rw [List.foldlM_cons] at he
    obtain ⟨st1, h1, h2⟩ := (bind_ok_iff _ _ _).1 he
    have key : OptTidy st1 ∧ st1.done = st.done ∧ (n ∈ st.initialized → n ∈ st1.initialized) := by
      unfold OptState.linkNeighbor at h1
      split at h1
      · cases h1; exact ⟨h, rfl, id⟩
      · rename_i hv
        obtain ⟨st2, g1, g2⟩ := (bind_ok_iff _ _ _).1 h1
        obtain ⟨k1, k2, k3⟩ := h.ensureActive hnd g1
        cases g2
        refine ⟨⟨cliffordsLast_append k1.last (cliffordsLast_of_none (by simp)) ?_, ?_, ?_, k1.sub⟩, k2, fun hi => ?_⟩
        · intro k g hk c hc
          simp only [List.mem_singleton] at hc
          subst hc
          have := k1.cliff k g hk
          rw [k2] at this
          simp only [Command.actsOn, List.mem_cons, List.not_mem_nil, or_false, not_or]
          exact ⟨fun e => hn (e ▸ this), fun e => hv (e ▸ this)⟩
        · intro k s' hk
          simp only [List.mem_append, List.mem_singleton, reduceCtorEq, or_false] at hk
          exact k1.plus _ _ hk
        · intro k g hk
          simp only [List.mem_append, List.mem_singleton, reduceCtorEq, or_false] at hk
          exact k1.cliff k g hk
        · simp only
          unfold OptState.ensureActive at g1
          split at g1
          · cases g1; exact hi
          · split at g1
            · cases g1
            · cases g1; exact Finset.mem_insert_of_mem hi
    obtain ⟨i1, i2, i3⟩ := ih key.1 (by rw [key.2.1]; exact hn) h2
    exact ⟨i1, i2.trans key.2.1, fun hi => i3 (key.2.2 hi)⟩

theorem OptTidy.neighborhood {nd : PyDict ℕ PlanarState} (hnd : ∀ n s, nd.get? n = some s → s = PlanarState.plus) {nbr : ℕ → List ℕ} {n : ℕ}
    {st st' : OptState} (h : OptTidy st) (hn : n ∉ st.done) (he : st.ensureNeighborhood nd nbr n = .ok st') :
    OptTidy st' ∧ st'.done = st.done ∧ n ∈ st'.initialized := by
  obtain ⟨st1, h1, h2⟩ := (bind_ok_iff _ _ _).1 he
  obtain ⟨k1, k2, k3⟩ := h.ensureActive hnd h1
  obtain ⟨i1, i2, i3⟩ := k1.link hnd _ (by rw [k2]; exact hn) h2
  exact ⟨i1, i2.trans k2, i3 k3⟩

theorem OptTidy.block {st : OptState} {n : ℕ} {l : List Command} (h : OptTidy st) (hn : n ∉ st.done) (hi : n ∈ st.initialized)
    (hl : CliffordsLast l) (ha : ∀ c ∈ l, ∀ k ∈ c.actsOn, k = n) (hN : ∀ k s, Command.N k s ∉ l) (hC : ∀ k g, Command.C k g ∈ l → k = n) :
    OptTidy ⟨st.seq ++ l, st.initialized, insert n st.done⟩ := by
  refine ⟨cliffordsLast_append h.last hl ?_, ?_, ?_, ?_⟩
  · intro k g hk c hc hkc
    rw [ha c hc k hkc] at hk
    exact hn (h.cliff _ g hk)
  · intro k s hk
    rcases List.mem_append.1 hk with hk | hk
    · exact h.plus _ _ hk
    · exact absurd hk (hN k s)
  · intro k g hk
    rcases List.mem_append.1 hk with hk | hk
    · exact Finset.mem_insert_of_mem (h.cliff _ _ hk)
    · rw [hC k g hk]; exact Finset.mem_insert_self _ _
  · intro k hk
    rcases Finset.mem_insert.1 hk with rfl | hk
    · exact hi
    · exact h.sub hk

theorem optSeq_tidy {sp : StdPattern} (hw : sp.WF) (hplus : ∀ n ∈ sp.nList, n.2 = PlanarState.plus) {nbr : ℕ → List ℕ} {st : OptState}
    (h : sp.optSeq nbr = .ok st) : OptTidy st := by
  have hnd : ∀ n s, sp.nDict.get? n = some s → s = PlanarState.plus := by
    intro n s hs
    have key : ∀ (l : List (ℕ × PlanarState)) (d : PyDict ℕ PlanarState), (∀ n ∈ l, n.2 = PlanarState.plus) →
        (∀ n s, d.get? n = some s → s = PlanarState.plus) →
        ∀ n s, (l.foldl (fun d n => PyDict.set d n.1 n.2) d).get? n = some s → s = PlanarState.plus := by
      intro l
      induction l with
      | nil => intro d _ hd; exact hd
      | cons a l ih =>
        intro d hl hd
        refine ih _ (fun n hn => hl n (by simp [hn])) ?_
        intro n s hns
        rw [PyDict.get?_set] at hns
        split at hns
        · cases hns; exact hl a (by simp)
        · exact hd n s hns
    exact key _ [] hplus (by simp) n s hs
  obtain ⟨st1, h1, h2⟩ := (bind_ok_iff _ _ _).1 h
  have m : ∀ (l : List MCmd) (a : List MCmd) (st st' : OptState), sp.mList = a ++ l → OptTidy st → st.done = (a.map MCmd.node).toFinset →
      l.foldlM (sp.optMeasure nbr) st = .ok st' → OptTidy st' ∧ st'.done = (sp.mList.map MCmd.node).toFinset := by
    intro l
    induction l with
    | nil => intro a st st' ha ht hd he; cases he; rw [List.append_nil] at ha; exact ⟨ht, by rw [hd, ha]⟩
    | cons m l ih =>
      intro a st st' ha ht hd he
      rw [List.foldlM_cons] at he
      obtain ⟨st1, g1, g2⟩ := (bind_ok_iff _ _ _).1 he
      obtain ⟨st2, k1, k2⟩ := (bind_ok_iff _ _ _).1 g1
      cases k2
      have hn : m.node ∉ st.done := by
        rw [hd, List.mem_toFinset]
        have := hw.m_nodup
        unfold StdPattern.measNodes at this
        rw [ha, List.map_append, List.map_cons] at this
        exact fun hmem => (List.nodup_append.1 this).2.2 _ hmem _ (by simp) rfl
      obtain ⟨i1, i2, i3⟩ := ht.neighborhood hnd hn k1
      refine ih (a ++ [m]) _ st' (by simp [ha]) (i1.block (by rw [i2]; exact hn) i3 (cliffordsLast_of_none (by simp [MCmd.toCmd])) ?_
        (by simp [MCmd.toCmd]) (by simp [MCmd.toCmd])) ?_ g2
      · simp [MCmd.toCmd, Command.actsOn]
      · simp only [i2, hd]; ext; simp [or_comm]
  have o : ∀ (l : List ℕ) (a : List ℕ) (st st' : OptState), sp.outputs = a ++ l → OptTidy st →
      st.done = (sp.mList.map MCmd.node).toFinset ∪ a.toFinset → l.foldlM (sp.optOutput nbr) st = .ok st' → OptTidy st' := by
    intro l
    induction l with
    | nil => intro a st st' ha ht hd he; cases he; exact ht
    | cons n l ih =>
      intro a st st' ha ht hd he
      rw [List.foldlM_cons] at he
      obtain ⟨st1, g1, g2⟩ := (bind_ok_iff _ _ _).1 he
      obtain ⟨st2, k1, k2⟩ := (bind_ok_iff _ _ _).1 g1
      cases k2
      have hno : n ∈ sp.outputs := by rw [ha]; simp
      have hn : n ∉ st.done := by
        rw [hd, Finset.mem_union, List.mem_toFinset, List.mem_toFinset, not_or]
        refine ⟨((hw.out n).1 hno).2, fun hmem => ?_⟩
        have := hw.out_nodup
        rw [ha] at this
        exact (List.nodup_append.1 this).2.2 _ hmem _ (by simp) rfl
      obtain ⟨i1, i2, i3⟩ := ht.neighborhood hnd hn k1
      have hsplit : ∃ A B, sp.optCorrections n = A ++ B ∧ (∀ c ∈ A, (∃ d, c = .Z n d) ∨ ∃ d, c = .X n d) ∧ ∀ c ∈ B, ∃ g, c = .C n g := by
        unfold StdPattern.optCorrections
        refine ⟨_, _, rfl, ?_, ?_⟩
        · intro c hc
          rcases List.mem_append.1 hc with hc | hc
          · split at hc
            · split at hc
              · simp only [List.mem_singleton] at hc; exact Or.inl ⟨_, hc⟩
              · simp at hc
            · simp at hc
          · split at hc
            · split at hc
              · simp only [List.mem_singleton] at hc; exact Or.inr ⟨_, hc⟩
              · simp at hc
            · simp at hc
        · intro c hc
          split at hc
          · simp only [List.mem_singleton] at hc; exact ⟨_, hc⟩
          · simp at hc
      obtain ⟨A, B, e, hA, hB⟩ := hsplit
      have hall : ∀ c ∈ sp.optCorrections n, (∃ d, c = .Z n d) ∨ (∃ d, c = .X n d) ∨ ∃ g, c = .C n g := by
        intro c hc
        rw [e] at hc
        rcases List.mem_append.1 hc with hc | hc
        · rcases hA c hc with h | h
          · exact Or.inl h
          · exact Or.inr (Or.inl h)
        · exact Or.inr (Or.inr (hB c hc))
      refine ih (a ++ [n]) _ st' (by simp [ha]) (i1.block (by rw [i2]; exact hn) i3 ?_ ?_ ?_ ?_) ?_ g2
      · rw [e]
        refine cliffordsLast_append (cliffordsLast_of_none ?_) (cliffordsLast_of_all ?_) ?_
        · intro k g hk
          rcases hA _ hk with ⟨d, h⟩ | ⟨d, h⟩ <;> cases h
        · intro c hc
          obtain ⟨g, rfl⟩ := hB c hc
          rfl
        · intro k g hk
          rcases hA _ hk with ⟨d, h⟩ | ⟨d, h⟩ <;> cases h
      · intro c hc k hk
        rcases hall c hc with ⟨d, rfl⟩ | ⟨d, rfl⟩ | ⟨g, rfl⟩ <;> simp [Command.actsOn] at hk <;> exact hk
      · intro k s hk
        rcases hall _ hk with ⟨d, h⟩ | ⟨d, h⟩ | ⟨g, h⟩ <;> cases h
      · intro k g hk
        rcases hall _ hk with ⟨d, h⟩ | ⟨d, h⟩ | ⟨g, h⟩ <;> cases h
        rfl
      · simp only [i2, hd]; ext; simp [or_comm, or_left_comm]
  obtain ⟨t1, t2⟩ := m sp.mList [] _ st1 rfl ⟨cliffordsLast_of_none (by simp), by simp, by simp, by simp⟩ rfl h1
  exact o sp.outputs [] st1 st rfl t1 (by rw [t2]; simp) h2

theorem tidy_of_opt {sp : StdPattern} (hw : sp.WF) (hplus : ∀ n ∈ sp.nList, n.2 = PlanarState.plus) {nbr : ℕ → List ℕ} (hb : NbrOk sp.eSet nbr)
    {q : Pattern} (hq : sp.toSpaceOptimalPattern nbr = .ok q) : Tidy q := by
  obtain ⟨q', hq', hf⟩ := patternFor_spaceOptimal hw hb
  obtain rfl := Except.ok.inj (hq.symm.trans hq')
  obtain ⟨st, h1, e1, e2, e3⟩ := toSpaceOptimal_ok hq
  obtain ⟨qS, qE⟩ := spaceOptimal_simple hw hb hq
  have ht := optSeq_tidy hw hplus h1
  refine ⟨⟨?_, ?_, ?_⟩, hf.run, qS, qE, ?_, ?_⟩
  · rw [e2]; exact (List.nodup_append.1 hw.nodes_nodup).1
  · rw [e3]; exact hw.out_nodup
  · intro n
    rw [e3, hw.out n]
    unfold Live
    rw [hf.intro n, hf.measured]
    unfold StdPattern.nodeList
    rw [List.mem_append]; rfl
  · rw [e1]; exact ht.plus
  · rw [e1]; exact ht.last

end Graphix
