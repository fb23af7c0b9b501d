import Verif.Proofs.TranspileFlow
import Verif.Props.SpaceMin

/-!
# C37: transpilation of circuits to patterns
-/

namespace Graphix

open Function

/-- The qubits that are measured in the circuit, in the order of the measurements. -/
def measuredQubits (l : List Instr) : List ℕ := l.filterMap fun i => match i with | .M t _ => some t | _ => none

theorem measuredQubits_eq (l : List Instr) : measuredQubits l = (msOf l).map Prod.fst := by
  unfold measuredQubits msOf
  rw [List.map_filterMap]
  congr 1
  funext i
  cases i <;> rfl

/-- networkx lists each neighbour of a node once. -/
def NbrOrd.Valid (nbr : Finset (Sym2 ℕ) → ℕ → List ℕ) : Prop := ∀ E, NbrOk E (nbr E)

theorem extend_seq (p : Pattern) (l : List Command) : (p.extend l).seq = p.seq ++ l ∧ (p.extend l).inputs = p.inputs := by
  induction l generalizing p with
  | nil => simp [Pattern.extend]
  | cons c l ih =>
    change ((p.add c).extend l).seq = _ ∧ ((p.add c).extend l).inputs = _
    rw [(ih _).1, (ih _).2]
    cases c <;> simp [Pattern.add]

theorem extend_measure_outputs (ms : List (ℕ × Measurement)) : ∀ (p : Pattern) (a : List ℕ), p.outputs = a ++ ms.map Prod.fst →
    p.outputs.Nodup → (p.extend (ms.map fun kv => Command.M kv.1 kv.2 ∅ ∅)).outputs = a := by
  induction ms with
  | nil => intro p a h _; simpa [Pattern.extend] using h
  | cons kv ms ih =>
    intro p a h hn
    change ((p.add (.M kv.1 kv.2 ∅ ∅)).extend _).outputs = a
    have : (p.add (.M kv.1 kv.2 ∅ ∅)).outputs = a ++ ms.map Prod.fst := by
      simp only [Pattern.add, h]
      rw [h] at hn
      rw [List.map_cons] at hn ⊢
      have hd := (List.nodup_append.1 hn).2.2
      rw [List.erase_append_right _ (fun hm => hd _ hm _ List.mem_cons_self rfl), List.erase_cons_head]
    refine ih _ a this ?_
    rw [this]
    rw [h, List.map_cons] at hn
    exact hn.sublist (by simp)

theorem runnable_append_measures {inputs : List ℕ} {seq : List Command} (h : Runnable inputs seq) (ms : List (ℕ × Measurement))
    (hl : ∀ kv ∈ ms, Live inputs seq kv.1) (hn : (ms.map Prod.fst).Nodup) :
    Runnable inputs (seq ++ ms.map fun kv => Command.M kv.1 kv.2 ∅ ∅) := by
  intro pre cmd post he
  rw [List.append_eq_append_iff] at he
  rcases he with ⟨t, h1, h2⟩ | ⟨t, h1, h2⟩
  · -- the command is one of the measurements
    rw [List.map_eq_append_iff] at h2
    obtain ⟨ms1, ms2, h3, h4, h5⟩ := h2
    rw [List.map_eq_cons_iff] at h5
    obtain ⟨kv, ms3, h6, h7, -⟩ := h5
    subst h1
    rw [← h7]
    subst h3 h6
    refine ⟨?_, by simp, by simp⟩
    have hlive := hl kv (by simp)
    have hni : kv.1 ∉ ms1.map Prod.fst := by
      rw [List.map_append, List.map_cons] at hn
      intro hm
      exact (List.nodup_append.1 hn).2.2 _ hm _ List.mem_cons_self rfl
    unfold Live at *
    refine ⟨?_, ?_⟩
    · unfold introduced at *
      rw [List.filterMap_append, ← List.append_assoc]
      exact List.mem_append_left _ hlive.1
    · unfold measuredIn at *
      rw [List.filterMap_append, List.mem_append, not_or]
      refine ⟨hlive.2, ?_⟩
      rw [← h4, List.filterMap_map]
      intro hm
      apply hni
      rw [List.mem_filterMap] at hm
      obtain ⟨kv', hkv, he⟩ := hm
      simp only [comp_apply, Command.measured?, Option.some.injEq] at he
      exact List.mem_map.2 ⟨kv', hkv, he⟩
  · cases t with
    | nil =>
      simp only [List.nil_append] at h2
      rw [List.append_nil] at h1
      cases ms with
      | nil => simp at h2
      | cons kv ms =>
        simp only [List.map_cons, List.cons.injEq] at h2
        rw [h2.1, ← h1]
        exact ⟨hl kv (by simp), by simp, by simp⟩
    | cons c t =>
      simp only [List.cons_append, List.cons.injEq] at h2
      exact h pre cmd t (by rw [h1, h2.1])

/-- The space-optimal pattern has no signal commands and no self-entanglement. -/
theorem spaceOptimal_simple {sp : StdPattern} (hw : sp.WF) {nbr : ℕ → List ℕ} (hb : NbrOk sp.eSet nbr) {q : Pattern}
    (h : sp.toSpaceOptimalPattern nbr = .ok q) : (∀ n d, Command.S n d ∉ q.seq) ∧ NoSelfLoop q.seq := by
  obtain ⟨st, h1, e1, -, -⟩ := toSpaceOptimal_ok h
  obtain ⟨st', h1', i, -⟩ := optSeq_inv hw hb
  have hst := h1
  rw [h1] at h1'; cases h1'
  rw [e1]
  refine ⟨?_, fun u v huv he => ?_⟩
  · have act : ∀ nd n (a b : OptState), a.ensureActive nd n = .ok b → (∀ n d, Command.S n d ∉ a.seq) → ∀ n d, Command.S n d ∉ b.seq := by
      intro nd n a b hab ha
      unfold OptState.ensureActive at hab
      split at hab
      · cases hab; exact ha
      · split at hab
        · cases hab
        · cases hab; simpa using ha
    have link : ∀ nd n v (a b : OptState), a.linkNeighbor nd n v = .ok b → (∀ n d, Command.S n d ∉ a.seq) → ∀ n d, Command.S n d ∉ b.seq := by
      intro nd n v a b hab ha
      unfold OptState.linkNeighbor at hab
      split at hab
      · cases hab; exact ha
      · obtain ⟨c, hc, hab⟩ := (bind_ok_iff _ _ _).1 hab
        cases hab
        simpa using act _ _ _ _ hc ha
    have fold : ∀ {α : Type} (f : OptState → α → Except PyErr OptState)
        (_ : ∀ a x b, f a x = .ok b → (∀ n d, Command.S n d ∉ a.seq) → ∀ n d, Command.S n d ∉ b.seq) (l : List α) (a b : OptState),
        l.foldlM f a = .ok b → (∀ n d, Command.S n d ∉ a.seq) → ∀ n d, Command.S n d ∉ b.seq := by
      intro α f hf l
      induction l with
      | nil => intro a b hab ha; cases hab; exact ha
      | cons x l ih =>
        intro a b hab ha
        rw [List.foldlM_cons] at hab
        obtain ⟨c, hc, hab⟩ := (bind_ok_iff _ _ _).1 hab
        exact ih c b hab (hf _ _ _ hc ha)
    have nbh : ∀ nd n (a b : OptState), a.ensureNeighborhood nd nbr n = .ok b → (∀ n d, Command.S n d ∉ a.seq) →
        ∀ n d, Command.S n d ∉ b.seq := by
      intro nd n a b hab ha
      unfold OptState.ensureNeighborhood at hab
      obtain ⟨c, hc, hab⟩ := (bind_ok_iff _ _ _).1 hab
      exact fold _ (fun a x b => link nd n x a b) _ _ _ hab (act _ _ _ _ hc ha)
    unfold StdPattern.optSeq at hst
    obtain ⟨c, hc, hst⟩ := (bind_ok_iff _ _ _).1 hst
    refine fold _ ?_ _ _ _ hst (fold _ ?_ _ _ _ hc (by simp))
    · intro a x b hab ha
      unfold StdPattern.optOutput at hab
      obtain ⟨c, hc, hab⟩ := (bind_ok_iff _ _ _).1 hab
      cases hab
      have := nbh _ _ _ _ hc ha
      intro n d hm
      rw [List.mem_append] at hm
      rcases hm with hm | hm
      · exact this n d hm
      · unfold StdPattern.optCorrections at hm
        simp only [List.mem_append] at hm
        rcases hm with (hm | hm) | hm
        · split at hm
          · split at hm <;> simp at hm
          · simp at hm
        · split at hm
          · split at hm <;> simp at hm
          · simp at hm
        · split at hm <;> simp at hm
    · intro a x b hab ha
      unfold StdPattern.optMeasure at hab
      obtain ⟨c, hc, hab⟩ := (bind_ok_iff _ _ _).1 hab
      cases hab
      simpa [MCmd.toCmd] using nbh _ _ _ _ hc ha
  · have := (i.edges s(u, v)).1 (List.mem_filterMap.2 ⟨_, huv, rfl⟩)
    exact hw.loop _ this he

/-- Measuring the last outputs of a pattern. -/
theorem extend_measure_ok {q : Pattern} (hq : q.OutputsOk) (hS : ∀ n d, Command.S n d ∉ q.seq) (hE : NoSelfLoop q.seq)
    (ms : List (ℕ × Measurement)) (a : List ℕ) (h : q.outputs = a ++ ms.map Prod.fst) :
    (q.extend (ms.map fun kv => Command.M kv.1 kv.2 ∅ ∅)).OutputsOk ∧
    (∀ n d, Command.S n d ∉ (q.extend (ms.map fun kv => Command.M kv.1 kv.2 ∅ ∅)).seq) ∧
    NoSelfLoop (q.extend (ms.map fun kv => Command.M kv.1 kv.2 ∅ ∅)).seq := by
  obtain ⟨e1, e2⟩ := extend_seq q (ms.map fun kv => Command.M kv.1 kv.2 ∅ ∅)
  have e3 := extend_measure_outputs ms q a h hq.outputs_nodup
  have hnd := hq.outputs_nodup
  rw [h, List.nodup_append] at hnd
  refine ⟨⟨by rw [e2]; exact hq.inputs_nodup, by rw [e3]; exact hnd.1, fun n => ?_⟩, ?_, ?_⟩
  · rw [e1, e2, e3]
    have h1 : measuredIn (q.seq ++ ms.map fun kv => Command.M kv.1 kv.2 ∅ ∅) = measuredIn q.seq ++ ms.map Prod.fst := by
      unfold measuredIn
      rw [List.filterMap_append, List.filterMap_map]
      congr 1
      exact List.filterMap_eq_map_iff_forall_eq_some.2 (fun _ _ => rfl) |>.trans rfl
    have h2 : introduced q.inputs (q.seq ++ ms.map fun kv => Command.M kv.1 kv.2 ∅ ∅) = introduced q.inputs q.seq := by
      unfold introduced
      rw [List.filterMap_append, List.filterMap_map]
      congr 1
      have : List.filterMap (Command.prepared? ∘ fun kv : ℕ × Measurement => Command.M kv.1 kv.2 ∅ ∅) ms = [] :=
        List.filterMap_eq_nil_iff.2 (fun _ _ => rfl)
      rw [this, List.append_nil]
    unfold Live
    rw [h1, h2]
    have := hq.outputs n
    rw [h, List.mem_append] at this
    unfold Live at this
    rw [List.mem_append]
    have hd := hnd.2.2
    constructor
    · intro hn
      have h3 := this.1 (Or.inl hn)
      exact ⟨h3.1, fun h4 => h4.elim h3.2 fun h5 => hd n hn n h5 rfl⟩
    · rintro ⟨h3, h4⟩
      rcases this.2 ⟨h3, fun h5 => h4 (Or.inl h5)⟩ with h5 | h5
      · exact h5
      · exact absurd (Or.inr h5) h4
  · rw [e1]; intro n d hm
    rw [List.mem_append] at hm
    rcases hm with hm | hm
    · exact hS n d hm
    · simp at hm
  · rw [e1]; intro u v hm
    rw [List.mem_append] at hm
    rcases hm with hm | hm
    · exact hE u v hm
    · simp at hm

/-- `C37_transpile_partial` with the shape of the pattern. -/
theorem transpile_full (c : Circuit) (hc : c.Built) (hp : ∀ i ∈ c.instrs, i.Proper ∧ ¬ i.isId) (ord : SetOrd) (hord : ord.Valid)
    (eord : List (ℕ × ℕ) → List (ℕ × ℕ)) (he : EdgeOrd.Valid eord) (nbr : Finset (Sym2 ℕ) → ℕ → List ℕ) (hnbr : NbrOrd.Valid nbr) :
    ∃ res, c.transpileKeepSwaps ord eord nbr = .ok res ∧
      (res.pattern.OutputsOk ∧ (∀ n d, Command.S n d ∉ res.pattern.seq) ∧ NoSelfLoop res.pattern.seq ∧
        ∀ n ∈ res.classicalOutputs, n ∈ measuredIn res.pattern.seq) ∧ res.pattern.checkRunnability = .ok () ∧
      res.pattern.inputs = List.range c.width ∧
      ∃ σ : ℕ → ℕ, (∀ q < c.width, ∀ q' < c.width, σ q = σ q' → q = q') ∧
        res.pattern.outputs = (c.active.sort (· ≤ ·)).map σ ∧ res.classicalOutputs = (measuredQubits c.instrs).map σ ∧
        ∃ k : ℕ, k + res.classicalOutputs.length = (measuredIn res.pattern.seq).length ∧
          ∀ r, OpPhaseEqOn (OnNodes (List.range c.width)) (semCmds r res.pattern.seq) fun ψ => (1 / (Real.sqrt 2 : ℂ)) ^ k •
            fun b => semInstrs (fun k => r (res.classicalOutputs.getD k 0)) 0 c.instrs ψ (b ∘ σ) := by
  obtain ⟨hok, hact⟩ := hc.listOk
  obtain ⟨jok, jaft, jms⟩ := jcz_listOk c.instrs _ hp hok
  have hjcz := jcz_isJcz c.instrs
  obtain ⟨st, σ, hrun, hinv, hsem⟩ := JInv.run (w := c.width) (instructionsToJcz c.instrs) hjcz (JInv.init c.width) (done := [])
    (by intro ψ hψ; exact ⟨hψ, rfl⟩) jok
  rw [jaft, ← hact, List.nil_append, jms] at hinv
  rw [List.nil_append] at hsem
  obtain ⟨z, layers, hz, hl, hflow⟩ := hinv.flow he hord
  have hv := hinv.og_valid he
  have hloop := hinv.og_loop he
  have hxk : st.x.keys.Nodup := by rw [hinv.xk]; exact hinv.mknd
  have hcheck := (C29_causalflow ⟨st.openGraph c.width eord, st.x, layers⟩ hv hxk ord hord).2 hflow
  obtain ⟨xz, hxz, hog, hwf, ht, hdet⟩ := C30_causalflow ⟨st.openGraph c.width eord, st.x, layers⟩ hv hloop hxk ord hord hcheck
  have hog' : xz.og = st.openGraph c.width eord := hog
  obtain ⟨p, hp1, hp2, -, hp3, hp4, hp5, -, hp6, -⟩ := hdet none (by simp)
  obtain ⟨p', hq1, -, -, -, -, hq6, hq7, ns, hq8, -, -⟩ := C31_to_pattern xz (by rw [hog']; exact hv) ord hord hwf ht none (by simp)
  rw [hp1] at hq1; cases hq1
  have hE : NoSelfLoop p.seq := by
    intro u v huv
    rw [hq8] at huv
    unfold patternCmds at huv
    simp only [List.mem_append, List.mem_map, List.mem_flatMap, blockOf] at huv
    rcases huv with ⟨n, -, h'⟩ | ⟨e, hm, h'⟩ | ⟨n, -, h'⟩ | ⟨kv, -, h'⟩
    · cases h'
    · cases h'; rw [hog'] at hm; exact hloop e hm
    · simp at h'
    · cases h'
  have hC : ∀ n g, Command.C n g ∉ p.seq := by
    intro n g hm
    rw [hq8] at hm
    unfold patternCmds at hm
    simp only [List.mem_append, List.mem_map, List.mem_flatMap, blockOf] at hm
    rcases hm with ⟨n, -, h'⟩ | ⟨e, hm, h'⟩ | ⟨n, -, h'⟩ | ⟨kv, hm, h'⟩
    · cases h'
    · cases h'
    · simp at h'
    · rw [hog'] at hm; simp [JczState.openGraph] at hm
  obtain ⟨body, hb⟩ := StdBody.run_ok_of_no_clifford p.seq hC StdBody.init rfl
  have hstd : StdPattern.fromPattern p = .ok { body with inputs := p.inputs, outputs := p.outputs } := by
    unfold StdPattern.fromPattern
    rw [hp2, hb]; rfl
  set sp : StdPattern := { body with inputs := p.inputs, outputs := p.outputs } with hsp
  have hspwf := fromPattern_wf hq7 hE hstd
  obtain ⟨q, hqok⟩ := C19_succeeds sp hspwf _ (hnbr sp.eSet)
  have hfrom := C19_from_pattern p hq7 hE sp hstd _ (hnbr sp.eSet) q hqok
  obtain ⟨qrun, qin, qout, -, -, -, -⟩ := C19_to_space_optimal sp hspwf _ (hnbr sp.eSet) q hqok
  have hres : c.transpileKeepSwaps ord eord nbr =
      .ok ⟨q.extend (st.classical.map fun kv => Command.M kv.1 (.pauli ⟨kv.2, .plus⟩) ∅ ∅), st.classical.keys⟩ := by
    unfold Circuit.transpileKeepSwaps Circuit.transpileToCausalFlow TranspiledFlow.toPattern
    simp only [hrun, hv.post, hz, hl, hxz, hp1, hstd, hqok, bind, Except.bind, pure, Except.pure]
  have hqin : q.inputs = List.range c.width := by rw [qin]; change p.inputs = _; rw [hp3, hog']; rfl
  have hqout : q.outputs = ((List.range c.width).filter (· ∈ c.active) ++ (msOf c.instrs).map Prod.fst).map σ := by
    rw [qout]; change p.outputs = _; rw [hp4, hog', hinv.outputs_eq]
  have hqnd : q.outputs.Nodup := by rw [qout]; change p.outputs.Nodup; rw [hp4, hog']; exact hinv.outputs_nodup
  -- the classical measurements as a list of nodes and measurements
  let cms : List (ℕ × Measurement) := (msOf c.instrs).map fun qa => (σ qa.1, .pauli ⟨qa.2, .plus⟩)
  have hcmd : (st.classical.map fun kv => Command.M kv.1 (.pauli ⟨kv.2, .plus⟩) ∅ ∅) = cms.map fun kv => Command.M kv.1 kv.2 ∅ ∅ := by
    rw [hinv.cls, List.map_map, List.map_map]; rfl
  have hcfst : cms.map Prod.fst = ((msOf c.instrs).map Prod.fst).map σ := by
    simp only [cms, List.map_map]; rfl
  have hsort : (List.range c.width).filter (· ∈ c.active) = c.active.sort (· ≤ ·) := by
    refine List.Perm.eq_of_pairwise (le := (· ≤ ·)) (fun a b _ _ h1 h2 => le_antisymm h1 h2) ?_ ?_ ?_
    · exact (List.pairwise_le_range).filter _
    · exact Finset.pairwise_sort _ _
    · rw [List.perm_ext_iff_of_nodup (List.nodup_range.filter _) (Finset.sort_nodup _ _)]
      intro n
      simp only [List.mem_filter, List.mem_range, decide_eq_true_eq, Finset.mem_sort]
      exact ⟨fun h => h.2, fun h => ⟨hinv.act_lt n h, h⟩⟩
  obtain ⟨eseq, ein⟩ := extend_seq q (cms.map fun kv => Command.M kv.1 kv.2 ∅ ∅)
  have hqR : Runnable q.inputs q.seq := (checkRunnability_iff q).1 qrun
  have hqOk : q.OutputsOk := ⟨by rw [hqin]; exact List.nodup_range, hqnd, fun n => by
    rw [qout, hspwf.out n]
    obtain ⟨-, -, -, qm, qi, -, -⟩ := C19_to_space_optimal sp hspwf _ (hnbr sp.eSet) q hqok
    unfold Live
    rw [qm, qi n]
    unfold StdPattern.nodeList
    rw [List.mem_append]; rfl⟩
  obtain ⟨qS, qE⟩ := spaceOptimal_simple hspwf (hnbr sp.eSet) hqok
  refine ⟨_, hres, ?_, ?_, ?_, σ, hinv.inj, ?_, ?_, st.nNodes - c.width, ?_, ?_⟩
  · simp only [hcmd]
    obtain ⟨x1, x2, x3⟩ := extend_measure_ok hqOk qS qE cms _ (by rw [hqout, List.map_append, hsort, hcfst])
    refine ⟨x1, x2, x3, fun n hn => ?_⟩
    have hkeys : st.classical.keys = cms.map Prod.fst := by
      rw [hcfst, hinv.cls]; simp [PyDict.keys]
    rw [hkeys] at hn
    rw [eseq, measuredIn_append, List.mem_append]
    right
    simpa [measuredIn, List.filterMap_map, Function.comp_def, Command.measured?] using hn
  · simp only [hcmd]
    rw [checkRunnability_iff, ein, eseq]
    refine runnable_append_measures hqR cms ?_ ?_
    · intro kv hkv
      have hmem : kv.1 ∈ q.outputs := by
        rw [hqout, List.map_append, ← hcfst]
        exact List.mem_append_right _ (List.mem_map_of_mem hkv)
      -- outputs of the space-optimal pattern are its live nodes
      rw [qout] at hmem
      have hw := (hspwf.out kv.1).1 hmem
      obtain ⟨-, -, -, qm, qi, -, -⟩ := C19_to_space_optimal sp hspwf _ (hnbr sp.eSet) q hqok
      refine ⟨(qi kv.1).2 ?_, ?_⟩
      · have := hw.1; unfold StdPattern.nodeList at this; simpa [List.mem_append] using this
      · rw [qm]; exact hw.2
    · rw [hcfst]
      have := hqnd
      rw [hqout, List.map_append] at this
      exact (List.nodup_append.1 this).2.1
  · simp only [hcmd]; rw [ein, hqin]
  · simp only [hcmd]
    rw [extend_measure_outputs cms q ((c.active.sort (· ≤ ·)).map σ) (by rw [hqout, List.map_append, hsort, hcfst]) hqnd]
  · simp only
    rw [hinv.cls, measuredQubits_eq]
    simp [PyDict.keys]
  · simp only [hcmd]
    rw [eseq, measuredIn_append, List.length_append]
    change _ = (measuredIn q.seq).length + (measuredIn (cms.map fun kv => Command.M kv.1 kv.2 ∅ ∅)).length
    have e1 : (measuredIn (cms.map fun kv => Command.M kv.1 kv.2 ∅ ∅)).length = st.classical.keys.length := by
      have : measuredIn (cms.map fun kv => Command.M kv.1 kv.2 ∅ ∅) = cms.map Prod.fst := by
        unfold measuredIn
        rw [List.filterMap_map]
        exact List.filterMap_eq_map_iff_forall_eq_some.2 (fun _ _ => rfl)
      rw [this, hcfst, hinv.cls]
      simp [PyDict.keys]
    have e2 : measuredIn q.seq = measuredIn p.seq := by
      obtain ⟨-, -, -, qm, -, -, -⟩ := C19_to_space_optimal sp hspwf _ (hnbr sp.eSet) q hqok
      rw [qm]; exact (fromPattern_inv hE hstd).ml
    have e3 : (measuredIn p.seq).length = st.nNodes - c.width := by
      have h1 : (measuredIn p.seq).toFinset = Finset.range st.nNodes \ (Finset.range c.width).image σ := by
        ext n
        rw [List.mem_toFinset, hq6.mem, hog']
        change n ∈ st.nodes ∧ _ ↔ _
        rw [hinv.nodes, hinv.mem_outputs]
        simp
      rw [← List.toFinset_card_of_nodup hq6.nodup, h1, Finset.card_sdiff_of_subset, Finset.card_range, Finset.card_image_of_injOn, Finset.card_range]
      · intro a ha b hb hab
        exact hinv.inj a (by simpa using ha) b (by simpa using hb) hab
      · intro n hn
        obtain ⟨q, hq, rfl⟩ := Finset.mem_image.1 hn
        exact Finset.mem_range.2 (hinv.lt q (by simpa using hq))
    rw [e1, e2, e3]
  · intro r
    -- the pattern without the circuit measurements
    have h1 : OpPhaseEqOn (OnNodes (List.range c.width)) (semCmds r q.seq) (st.openGraph c.width eord).linMap := by
      obtain ⟨e, hen, h⟩ := ((hfrom r).1.symm.on _).trans (hp6 r)
      rw [hog'] at h
      refine ⟨e, hen, fun ψ hψ => h ψ (hψ.absent fun n hn hn' => ?_)⟩
      rw [hp5, Finset.mem_sdiff, List.mem_toFinset, hog'] at hn'
      exact hn'.2 hn
    obtain ⟨e, hen, h1⟩ := h1
    obtain ⟨d, hd, hjs⟩ := (jcz_sem c.instrs hp (fun k => r (st.classical.keys.getD k 0)) 0)
    refine ⟨e * d, by simp [hen, hd], fun ψ hψ => ?_⟩
    replace h1 := h1 ψ hψ
    simp only [hcmd]
    rw [eseq, semCmds_append]
    obtain ⟨hon, hs⟩ := hsem ψ hψ
    have h2 : (st.openGraph c.width eord).linMap ψ = (1 / (Real.sqrt 2 : ℂ)) ^ (st.nNodes - c.width) •
        fun b => gates (instructionsToJcz c.instrs) ψ (b ∘ σ) := by
      have hmem : ∀ u, u ∈ st.measurements.keys ↔ u ∈ (st.openGraph c.width eord).nodes ∧ u ∉ (st.openGraph c.width eord).outputs := by
        intro u
        rw [hinv.meas, hinv.mem_outputs]
        change _ ↔ u ∈ st.nodes ∧ _
        rw [hinv.nodes, Finset.mem_range]
        push Not
        rfl
      rw [linMap_eq hv hmem (ns := List.range' c.width (st.nNodes - c.width)) List.nodup_range' (by
        intro n
        change _ ↔ n ∈ st.nodes ∧ n ∉ List.range c.width
        have := hinv.wle
        rw [hinv.nodes, Finset.mem_range, List.mem_range'_1, List.mem_range]; omega)]
      rw [locOps_eq_of (F := measBra st.measurements) (l := st.measurements.keys) hinv.mknd (Finset.sort_nodup _ _)]
      · have hcz : czList (st.openGraph c.width eord).edges (prepList (List.range' c.width (st.nNodes - c.width)) ψ) =
            (1 / (Real.sqrt 2 : ℂ)) ^ (st.nNodes - c.width) • czList st.edges ψ := by
          change czList (eord st.edges) _ = _
          rw [czList_same_edges hinv.eonce ((he st.edges).2 hinv.eonce) (he st.edges).1]
          funext b
          rw [Pi.smul_apply, czList_apply, czList_apply, prepList_apply, List.length_range', smul_eq_mul]
          have : PlanarState.plus.vec false = 1 / (Real.sqrt 2 : ℂ) := by
            simp [PlanarState.plus, PlanarState.vec, planarState]
          rw [this]; ring
        rw [hcz, locOps_homog, hs]
      · intro n hn
        rw [Finset.mem_sort]; exact ((hmem n).1 hn).1
      · intro n hn
        rw [if_pos hn]; rfl
      · intro n _ hn
        rw [if_neg hn]; rfl
    have h3 : semInstrs (fun k => r (st.classical.keys.getD k 0)) 0 (instructionsToJcz c.instrs) ψ =
        projMs (fun k => r (st.classical.keys.getD k 0)) 0 (msOf c.instrs) (gates (instructionsToJcz c.instrs) ψ) := by
      rw [semInstrs_jcz _ _ hjcz 0 jok, jms]
    have h4 := semCmds_classical hinv.inj r (fun k => r (st.classical.keys.getD k 0)) (msOf c.instrs) 0 _ hon
      (fun qa hqa => ((hinv.ms_mem qa.1).1 (List.mem_map_of_mem hqa)).1) (by
        intro i qa hi
        simp only [Nat.zero_add, hinv.cls, PyDict.keys, List.map_map, List.getD_eq_getElem?_getD, List.getElem?_map, hi]
        rfl)
    have hcmd' : (cms.map fun kv => Command.M kv.1 kv.2 ∅ ∅) =
        (msOf c.instrs).map fun qa => Command.M (σ qa.1) (.pauli ⟨qa.2, .plus⟩) ∅ ∅ := by
      simp only [cms, List.map_map]; rfl
    rw [h1, h2, semCmds_homog, semCmds_homog, hcmd', h4, ← h3, hjs ψ]
    funext b
    simp only [Pi.smul_apply, smul_eq_mul]
    ring

/-- **C37** (`transpile_swaps=False`). For every circuit built through the API without `I`, whose `rzz` gates act on distinct
qubits, and whatever the iteration orders of sets and of networkx: `transpile` succeeds; the pattern is runnable, its
inputs are the qubits, its outputs carry the qubits that are not measured in increasing order, the classical outputs are
the nodes of the measurements in the order of the gates, and in every branch `r` the pattern does what the circuit does
when its `k`-th measurement gives the outcome of the `k`-th classical output (`σ` renames the qubits to the nodes that
carry them; the weight `(1/√2)^k` is the same for all branches, `k` being the number of the other measurements). -/
theorem C37_transpile_partial (c : Circuit) (hc : c.Built) (hp : ∀ i ∈ c.instrs, i.Proper ∧ ¬ i.isId) (ord : SetOrd) (hord : ord.Valid)
    (eord : List (ℕ × ℕ) → List (ℕ × ℕ)) (he : EdgeOrd.Valid eord) (nbr : Finset (Sym2 ℕ) → ℕ → List ℕ) (hnbr : NbrOrd.Valid nbr) :
    ∃ res, c.transpileKeepSwaps ord eord nbr = .ok res ∧ res.pattern.checkRunnability = .ok () ∧
      res.pattern.inputs = List.range c.width ∧
      ∃ σ : ℕ → ℕ, (∀ q < c.width, ∀ q' < c.width, σ q = σ q' → q = q') ∧
        res.pattern.outputs = (c.active.sort (· ≤ ·)).map σ ∧ res.classicalOutputs = (measuredQubits c.instrs).map σ ∧
        ∃ k : ℕ, k + res.classicalOutputs.length = (measuredIn res.pattern.seq).length ∧
          ∀ r, OpPhaseEqOn (OnNodes (List.range c.width)) (semCmds r res.pattern.seq) fun ψ => (1 / (Real.sqrt 2 : ℂ)) ^ k •
            fun b => semInstrs (fun k => r (res.classicalOutputs.getD k 0)) 0 c.instrs ψ (b ∘ σ) := by
  obtain ⟨res, h1, -, h2⟩ := transpile_full c hc hp ord hord eord he nbr hnbr
  exact ⟨res, h1, h2⟩

/-- Neighbours in increasing order. -/
def sortedNbr (E : Finset (Sym2 ℕ)) (u : ℕ) : List ℕ :=
  ((E.biUnion fun e => e.toFinset).filter fun v => s(u, v) ∈ E).sort (· ≤ ·)

theorem sortedNbr_valid : NbrOrd.Valid sortedNbr := by
  intro E u
  refine ⟨Finset.sort_nodup _ _, fun v => ?_⟩
  simp only [sortedNbr, Finset.mem_sort, Finset.mem_filter, Finset.mem_biUnion, and_iff_right_iff_imp]
  intro h
  exact ⟨_, h, by simp⟩

theorem idEdgeOrd_valid : EdgeOrd.Valid id := fun _ => ⟨fun _ _ => Iff.rfl, fun h => h⟩

/-- A circuit with a measurement in the middle. -/
noncomputable def exCircuit : Circuit := ⟨2, [.H 0, .CNOT 0 1, .SWAP 0 1, .M 0 .X, .RZ 1 (1/3)], {1}⟩

theorem exCircuit_built : exCircuit.Built :=
  ⟨2, exCircuit.instrs, Circuit.extend_ok_iff.2
    ⟨by simp [exCircuit, Circuit.listOk, Circuit.instrOk, Instr.after, Circuit.new], rfl⟩⟩

theorem exCircuit_proper : ∀ i ∈ exCircuit.instrs, i.Proper ∧ ¬ i.isId := by
  simp [exCircuit, Instr.Proper, Instr.isId]

example : ∃ res, exCircuit.transpileKeepSwaps exOrd id sortedNbr = .ok res ∧ res.pattern.checkRunnability = .ok () ∧
    ∃ n m, res.pattern.outputs = [n] ∧ res.classicalOutputs = [m] := by
  obtain ⟨res, h, h1, -, σ, -, h2, h3, -⟩ :=
    C37_transpile_partial exCircuit exCircuit_built exCircuit_proper exOrd exOrd_valid id idEdgeOrd_valid sortedNbr sortedNbr_valid
  refine ⟨res, h, h1, σ 1, σ 0, ?_, ?_⟩
  · rw [h2]; simp [exCircuit]
  · rw [h3]; rfl

/-- **C37 fails for `I`.** Whatever follows the first identity gate is lost: the pattern of `[I 0, X 0]` does not do what
the circuit does. -/
theorem C37_identity_drops_rest (ord : SetOrd) (hord : ord.Valid)
    (eord : List (ℕ × ℕ) → List (ℕ × ℕ)) (he : EdgeOrd.Valid eord) (nbr : Finset (Sym2 ℕ) → ℕ → List ℕ) (hnbr : NbrOrd.Valid nbr) :
    (∀ w t l act act', (Circuit.mk w (.I t :: l) act).transpileKeepSwaps ord eord nbr =
      (Circuit.mk w [] act').transpileKeepSwaps ord eord nbr) ∧
    ∃ c : Circuit, c.Built ∧ c.instrs = [.I 0, .X 0] ∧ ∃ res, c.transpileKeepSwaps ord eord nbr = .ok res ∧
      ∃ n, res.pattern.outputs = [n] ∧ ∀ r, ∃ ψ, OnNodes (List.range c.width) ψ ∧
        ∀ d : ℂ, d ≠ 0 → ¬ PhaseEq (semCmds r res.pattern.seq ψ) (d • fun b => semInstrs (fun _ => false) 0 c.instrs ψ (fun _ => b n)) := by
  have h0 : ∀ w t l act act', (Circuit.mk w (.I t :: l) act).transpileKeepSwaps ord eord nbr =
      (Circuit.mk w [] act').transpileKeepSwaps ord eord nbr := by
    intro w t l act act'
    unfold Circuit.transpileKeepSwaps Circuit.transpileToCausalFlow
    have : instructionsToJcz (.I t :: l) = instructionsToJcz [] := by rw [instructionsToJcz, instructionsToJcz]
    simp only [this]
  refine ⟨h0, ⟨1, [.I 0, .X 0], {0}⟩, ⟨1, [.I 0, .X 0], Circuit.extend_ok_iff.2
    ⟨by simp [Circuit.listOk, Circuit.instrOk, Instr.after, Circuit.new], rfl⟩⟩, rfl, ?_⟩
  obtain ⟨res, h, -, -, σ, -, h2, -, k, -, h3⟩ :=
    C37_transpile_partial ⟨1, [], {0}⟩ ⟨1, [], rfl⟩ (by simp) ord hord eord he nbr hnbr
  refine ⟨res, by rw [h0 1 0 [.X 0] {0} {0}]; exact h, σ 0, by rw [h2]; simp, fun r => ?_⟩
  refine ⟨fun b => if b 0 then 1 else 0, ?_, ?_⟩
  · intro b b' hb
    simp only [hb 0 (by simp)]
  · rintro d hd ⟨e, he1, he2⟩
    obtain ⟨e', he1', he2'⟩ := (h3 r).state (ψ := fun b => if b 0 then 1 else 0) (by intro b b' hb; simp only [hb 0 (by simp)])
    rw [he2'] at he2
    have h4 := congrFun he2 (fun _ => false)
    simp [semInstrs, Instr.gate, op1, Ops.X, mat2] at h4
    rcases h4 with h4 | h4
    · rw [h4] at he1; simp at he1
    · exact hd h4

end Graphix
