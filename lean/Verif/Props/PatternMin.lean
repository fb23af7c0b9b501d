import Verif.Model.PatternMin
import Verif.Props.PatternFlow
import Verif.Props.SpaceMin
import Verif.Props.Swaps

/-!
# C69: `Pattern.minimize_space()` with its default heuristics
-/

namespace Graphix

/-! ### `CausalFlow.check_well_formed` only raises `FlowError` -/

theorem checkNodeC_error {f : Flow} (hb : ∀ w m, f.og.measurements.get? w = some m → ∃ a, m = .bloch a) (hg : f.checkGeneral = .ok ())
    (hk : f.corr.keys.Nodup) (hp : f.og.postInit = .ok ()) (past : Finset ℕ) (n : ℕ) (hn : n ∈ f.og.measurements.keys) {e : PyErr}
    (h : f.checkNodeC past n = .error e) : e = .flowError := by
  obtain ⟨g1, g2, -⟩ := (f.checkGeneral_ok hk).1 hg
  obtain ⟨hm, -⟩ := f.og.postInit_ok hp
  obtain ⟨s, hs⟩ := (g1 n).2 (by
    have : n ∈ f.og.measurements.keys.toFinset := List.mem_toFinset.2 hn
    rw [hm] at this; simpa using this)
  obtain ⟨m, hm'⟩ : ∃ m, f.og.measurements.get? n = some m :=
    Option.isSome_iff_exists.1 ((PyDict.get?_isSome_iff _ _).2 hn)
  obtain ⟨a, rfl⟩ := hb n m hm'
  have hpl : f.og.plane n = .ok a.plane := by
    unfold OpenGraph.plane; rw [hm']; rfl
  have hnb : f.og.neighbors s = .ok (s.biUnion f.og.nbrs) := by
    unfold OpenGraph.neighbors; rw [if_pos]; intro v hv; exact (g2 n s v hs hv).1
  unfold Flow.checkNodeC at h
  simp only [(f.correctionSet_ok n s).2 hs, hpl, hnb, bind, Except.bind, throw, throwThe, MonadExceptOf.throw, pure, Except.pure] at h
  repeat' split at h
  all_goals first | (cases h; rfl) | cases h | skip

theorem checkC_error {f : Flow} (hb : ∀ w m, f.og.measurements.get? w = some m → ∃ a, m = .bloch a)
    (hk : f.corr.keys.Nodup) (hp : f.og.postInit = .ok ()) {ord : SetOrd} (hord : ord.Valid) {e : PyErr}
    (h : f.checkC ord = .error e) : e = .flowError := by
  cases hg : f.checkGeneral with
  | error e' =>
    have : e' = .flowError := by
      unfold Flow.checkGeneral at hg
      simp only [] at hg
      repeat' split at hg
      all_goals first | (cases hg; rfl) | cases hg
    subst this
    unfold Flow.checkC at h
    rw [hg] at h
    cases h; rfl
  | ok _ =>
    have nodes : ∀ past l, (∀ n ∈ l, n ∈ f.og.measurements.keys) → ∀ e, f.checkNodesC past l = .error e → e = .flowError := by
      intro past l
      induction l with
      | nil => intro _ e h; cases h
      | cons n l ih =>
        intro hl e h
        unfold Flow.checkNodesC at h
        cases h1 : f.checkNodeC past n with
        | error e1 =>
          rw [h1] at h; cases h
          exact checkNodeC_error hb hg hk hp past n (hl n (by simp)) h1
        | ok _ =>
          rw [h1] at h
          exact ih (fun m hm => hl m (by simp [hm])) e h
    have layers : ∀ ls past, ∀ e, f.checkLayersC ord ls past = .error e → e = .flowError := by
      intro ls
      induction ls with
      | nil => intro past e h; cases h
      | cons L ls ih =>
        intro past e h
        unfold Flow.checkLayersC at h
        split at h
        · cases h; rfl
        · rename_i hL
          push Not at hL
          cases h1 : f.checkNodesC (past ∪ L) (ord 4 0 L) with
          | error e1 =>
            rw [h1] at h; cases h
            exact nodes _ _ (fun n hn => List.mem_toFinset.1 (hL.1 ((hord _ _ _).2 n |>.1 hn))) _ h1
          | ok _ =>
            rw [h1] at h
            exact ih _ e h
    unfold Flow.checkC at h
    rw [hg] at h
    simp only [bind, Except.bind] at h
    cases h1 : f.checkLayersC ord (f.og.measuredLayers f.layers).reverse ∅ with
    | error e1 => rw [h1] at h; cases h; exact layers _ _ _ h1
    | ok past =>
      rw [h1] at h
      simp only [throw, throwThe, MonadExceptOf.throw, pure, Except.pure] at h
      split at h
      · cases h; rfl
      · cases h

theorem downcastMeasurements_error (l : PyDict ℕ Measurement) {e : PyErr} (h : OpenGraph.downcastMeasurements l = .error e) : e = .typeError := by
  rcases OpenGraph.downcastMeasurements_spec l with ⟨h1, -⟩ | h1
  · rw [h1] at h; cases h
  · rw [h1] at h; cases h; rfl

/-! ### The causal-flow heuristic -/

section
variable {p : Pattern} (hp : p.OutputsOk) (hE : NoSelfLoop p.seq)
  (hplus : ∀ n st, Command.N n st ∈ p.seq → st = PlanarState.plus) {sp : StdPattern}
  (h : StdPattern.fromPattern p = .ok sp) {enum : Finset (Sym2 ℕ) → List (ℕ × ℕ)} (he : EnumOrd.Valid enum)
  {ord : SetOrd} (hord : ord.Valid)
include hp hE hplus h he hord

omit hp hE hplus he hord in
theorem causalFlowOf_eq : p.toCausalFlow enum ord = sp.causalFlowOf enum ord := by
  simp only [Pattern.toCausalFlow, Pattern.toXZCorrections, StdPattern.causalFlowOf, h, bind, Except.bind]

/-- The heuristic answers when the pattern has a causal flow, declines otherwise, and does not raise. -/
theorem causalFlowHeuristic_spec :
    (∃ f, p.toCausalFlow enum ord = .ok f ∧ StdPattern.causalFlowHeuristic enum ord sp = .ok (some ⟨f.measurementOrder ord, true⟩)) ∨
    ((∀ f, p.toCausalFlow enum ord ≠ .ok f) ∧ StdPattern.causalFlowHeuristic enum ord sp = .ok none) := by
  obtain ⟨xz, h1, hc⟩ := corrections_of_pattern hp hE hplus h he hord
  have e1 : p.toCausalFlow enum ord = xz.downcastBloch >>= fun xz => xz.toCausalFlow ord := by
    simp only [Pattern.toCausalFlow, h1, bind, Except.bind]
  have e2 := causalFlowOf_eq h (enum := enum) (ord := ord)
  unfold StdPattern.causalFlowHeuristic
  rw [← e2]
  cases hf : p.toCausalFlow enum ord with
  | ok f => exact Or.inl ⟨f, rfl, rfl⟩
  | error e =>
    refine Or.inr ⟨fun f hf' => (by cases hf'), ?_⟩
    have : e = .typeError ∨ e = .flowError := by
      rw [e1] at hf
      unfold XZCorrections.downcastBloch at hf
      cases hd : xz.og.downcastBloch with
      | error e' =>
        rw [hd] at hf; cases hf
        left
        unfold OpenGraph.downcastBloch at hd
        cases hm : OpenGraph.downcastMeasurements xz.og.measurements with
        | error e' => rw [hm] at hd; cases hd; exact downcastMeasurements_error _ hm
        | ok ms =>
          rcases OpenGraph.downcastMeasurements_spec xz.og.measurements with ⟨h3, -⟩ | h3
          · simp only [h3, hc.valid.post, bind, Except.bind, pure, Except.pure] at hd
            cases hd
          · rw [h3] at hm; cases hm
      | ok og =>
        have hog := downcastBloch_ok hc.valid hd
        subst hog
        rw [hd] at hf
        right
        have hf' : xz.toCausalFlow ord = .error e := hf
        unfold XZCorrections.toCausalFlow at hf'
        simp only [] at hf'
        cases hk : (⟨xz.og, xz.x, xz.layers⟩ : Flow).checkC ord with
        | error e' =>
          rw [hk] at hf'; cases hf'
          exact checkC_error ((bloch_iff hc.valid).1 hd) hc.xkeys hc.valid.post hord hk
        | ok _ => rw [hk] at hf'; cases hf'
    rcases this with rfl | rfl <;> rfl

/-- The order of the causal flow is a valid order of the measurements, and it is compatible with the flow. -/
theorem causalFlow_order (f : Flow) (hf : p.toCausalFlow enum ord = .ok f) :
    ValidOrder sp (f.measurementOrder ord) ∧
      ∃ g : ℕ → ℕ, FlowOrder sp.inputs sp.eSet (f.measurementOrder ord) g := by
  obtain ⟨xz, h1, hc⟩ := corrections_of_pattern hp hE hplus h he hord
  obtain ⟨xz', h1', hcap, hiff, -⟩ := C61_to_causalflow p hp hE hplus sp h enum he ord hord
  rw [h1] at h1'; cases h1'
  obtain ⟨-, rfl, hcf⟩ := (hiff f).1 hf
  have hw := fromPattern_wf hp hE h
  have hi := fromPattern_inv hE h
  obtain ⟨hR, hrun, e1, e2⟩ := fromPattern_ok h
  have hl : LayersOk xz.og xz.layers := hcf.layers
  -- the outputs are the first layer, or there is no layer at all
  have hml : xz.og.measuredLayers xz.layers = xz.layers.drop 1 := by
    unfold OpenGraph.measuredLayers
    by_cases ho : xz.og.outputs = []
    · rw [if_neg (by simp [ho])]
      cases hls : xz.layers with
      | nil => rfl
      | cons L ls =>
        exfalso
        obtain ⟨u, hu⟩ := hl.nonempty L (by rw [hls]; simp)
        have hun : u ∈ xz.og.nodes := (hl.cover u).2 ⟨L, by rw [hls]; simp, hu⟩
        obtain ⟨s, hs⟩ := (hcf.domain u).2 ⟨hun, by simp [ho]⟩
        obtain ⟨w, -, -, hbef, -⟩ := hcf.single u s hs
        obtain ⟨i, j, K, L', k1, k2, k3, k4, k5⟩ := hbef
        have := index_unique hl.disjoint (i := 0) (j := i) (by rw [hls]; rfl) k1 hu k4
        omega
    · rw [if_pos ho]
  have hext : LinearExtension xz.og xz.layers ((⟨xz.og, xz.x, xz.layers⟩ : Flow).measurementOrder ord) := by
    obtain ⟨o, ho, hx⟩ := C31_total_order xz hc.valid hl (fun _ => ord 31) (fun a b s => hord 31 b s)
    unfold XZCorrections.generateTotalMeasurementOrder at ho
    simp only [] at ho
    split at ho
    · cases ho
    · cases ho
      rw [hml] at hx
      exact hx
  set order := (⟨xz.og, xz.x, xz.layers⟩ : Flow).measurementOrder ord with horder
  have hnode : ∀ u, u ∈ xz.og.nodes ↔ u ∈ sp.nodeList := by
    intro u
    rw [hcap.nodes]
    unfold StdPattern.nodeList introduced
    rw [e1, hi.nl]
  have hmeas : ∀ u, u ∈ order ↔ u ∈ sp.measNodes := by
    intro u
    rw [hext.mem, hnode, hcap.outputs, ← e2, hw.out]
    have := hw.m_sub u
    tauto
  -- what comes before in the partial order comes before in the list
  have hsplit : ∀ a n c, order = a ++ n :: c → ∀ k, k ∈ order → Before xz.layers k n → k ∈ a := by
    intro a n c hs k hk hb
    rw [hs] at hk
    rcases List.mem_append.1 hk with h' | h'
    · exact h'
    · exfalso
      have hm := hext.mono
      rw [hs, List.pairwise_append] at hm
      rcases List.mem_cons.1 h' with rfl | h'
      · obtain ⟨i, j, K, L, k1, k2, k3, k4, k5⟩ := hb
        have := index_unique hl.disjoint k1 k2 k4 k5
        omega
      · exact (List.pairwise_cons.1 hm.2.1).1 k h' hb
  constructor
  · refine ⟨(List.perm_ext_iff_of_nodup hext.nodup hw.m_nodup).2 hmeas, ?_⟩
    intro a n c hs m hm hmn
    have hno : n ∈ xz.og.nodes := by
      have := (hext.mem n).1 (by rw [hs]; simp)
      exact this.1
    constructor
    · intro k hk
      have hx : sp.XDom k n := Or.inl ⟨m, hm, hmn, hk⟩
      obtain ⟨s, hs', hks⟩ := (hcap.x k n).2 hx
      exact hsplit a n c hs k ((hmeas k).2 (hw.earlier (Or.inl hx)).1) (hc.ok.x_later k s n hs' hks hno)
    · intro k hk
      have hx : sp.ZDom k n := Or.inl ⟨m, hm, hmn, hk⟩
      obtain ⟨s, hs', hks⟩ := (hcap.z k n).2 hx
      exact hsplit a n c hs k ((hmeas k).2 (hw.earlier (Or.inr hx)).1) (hc.ok.z_later k s n hs' hks hno)
  · have hex : ∀ n, ∃ w, n ∈ order → w ∈ xz.og.nodes ∧ w ∉ xz.og.inputs ∧ xz.og.Adj n w ∧ Before xz.layers n w ∧
        ∀ v, xz.og.Adj v w → v ≠ n → v ∈ xz.og.nodes → Before xz.layers n v := by
      intro n
      by_cases hn : n ∈ order
      · obtain ⟨s, hs⟩ := (hcf.domain n).2 ((hext.mem n).1 hn)
        obtain ⟨w, rfl, h3, h4, h5⟩ := hcf.single n s hs
        have h6 := hcf.image n {w} w hs (by simp)
        exact ⟨w, fun _ => ⟨h6.1, h6.2, h3, h4, h5⟩⟩
      · exact ⟨0, fun h => absurd h hn⟩
    choose g hg using hex
    have hadj : ∀ u v, xz.og.Adj u v ↔ s(u, v) ∈ sp.eSet := by
      intro u v
      obtain ⟨-, f2⟩ := StdBody.run_fields hrun
      rw [hcap.adj]
      have := f2 u v
      have h0 : s(u, v) ∉ StdBody.init.eSet := by simp [StdBody.init]
      exact (this.trans ⟨fun h => by tauto, fun h => by tauto⟩).symm
    refine ⟨g, ?_⟩
    intro a n c hs
    have hn : n ∈ order := by rw [hs]; simp
    obtain ⟨g1, g2, g3, g4, g5⟩ := hg n hn
    have hbna : ∀ k ∈ a, ¬ Before xz.layers n k := by
      intro k hk hb
      have hm := hext.mono
      rw [hs, List.pairwise_append] at hm
      exact hm.2.2 k hk n (by simp) hb
    have hna : n ∉ a := by
      have := hext.nodup
      rw [hs, List.nodup_append] at this
      intro hn'
      exact this.2.2 n hn' n (by simp) rfl
    refine ⟨by rw [e1, ← hcap.inputs]; exact g2, (hadj _ _).1 g3, fun hk => hbna _ hk g4, ?_⟩
    intro k hk hadjk
    have hkn : k ∈ xz.og.nodes := ((hext.mem k).1 (by rw [hs]; simp [hk])).1
    exact hbna k hk (g5 k ((hadj _ _).2 hadjk) (by rintro rfl; exact hna hk) hkn)

end

/-! ### Specification -/

/-- `q` does the computation of `p`: it is runnable, has the inputs, outputs and nodes of `p`, measures the same nodes (perhaps in another
order), and for all outcomes it does the same linear map up to a global phase. -/
structure Rearranges (p q : Pattern) : Prop where
  runnable : q.checkRunnability = .ok ()
  inputs : q.inputs = p.inputs
  outputs : q.outputs = p.outputs
  nodes : ∀ n, n ∈ introduced q.inputs q.seq ↔ n ∈ introduced p.inputs p.seq
  measured : (measuredIn q.seq).Perm (measuredIn p.seq)
  same : ∀ r, OpPhaseEq (semCmds r p.seq) (semCmds r q.seq)

/-- `q` is another way to lay out the computation of `p` in time: a runnable pattern with the inputs of `p` that introduces the nodes of `p`,
entangles the pairs of nodes that `p` entangles (those that it entangles an odd number of times) and measures the nodes that `p` measures. -/
structure Rival (p q : Pattern) : Prop where
  inputs : q.inputs = p.inputs
  runnable : q.checkRunnability = .ok ()
  nodes : ∀ n, n ∈ introduced p.inputs p.seq → n ∈ introduced q.inputs q.seq
  edges : ∀ u v, Odd (edgeCount p.seq u v) → Command.E u v ∈ q.seq ∨ Command.E v u ∈ q.seq
  measured : (measuredIn q.seq).Perm (measuredIn p.seq)

/-- Heuristics that do not raise on the pattern, and whose answers are orders of its measurements that respect the domains. -/
def Sound (sp : StdPattern) (hs : List StdPattern.Heuristic) : Prop :=
  ∀ f ∈ hs, f sp = .ok none ∨ ∃ o k, f sp = .ok (some ⟨o, k⟩) ∧ ValidOrder sp o

/-! ### Proofs -/

theorem mem_eSet_iff {p : Pattern} {sp : StdPattern} (h : StdPattern.fromPattern p = .ok sp) (u v : ℕ) :
    s(u, v) ∈ sp.eSet ↔ Odd (edgeCount p.seq u v) := by
  obtain ⟨-, hrun, -, -⟩ := fromPattern_ok h
  obtain ⟨-, f2⟩ := StdBody.run_fields hrun
  have h0 : s(u, v) ∉ StdBody.init.eSet := by simp [StdBody.init]
  exact (f2 u v).trans ⟨fun h => by tauto, fun h => by tauto⟩

theorem Rival.competitor {p q : Pattern} (hr : Rival p q) {sp : StdPattern} (hE : NoSelfLoop p.seq)
    (h : StdPattern.fromPattern p = .ok sp) :
    Competitor q sp.inputs (sp.inputs ++ sp.nList.map Prod.fst) sp.eSet (measuredIn q.seq) := by
  have hi := fromPattern_inv hE h
  obtain ⟨-, -, e1, -⟩ := fromPattern_ok h
  refine ⟨by rw [e1, hr.inputs], (checkRunnability_iff _).1 hr.runnable, rfl, ?_, ?_⟩
  · intro n hn
    rw [e1, hi.nl] at hn
    exact hr.nodes n hn
  · intro e
    induction e using Sym2.inductionOn with
    | hf u v =>
      intro he
      rcases hr.edges u v ((mem_eSet_iff h u v).1 he) with h' | h'
      · exact List.mem_filterMap.2 ⟨_, h', rfl⟩
      · exact List.mem_filterMap.2 ⟨_, h', by simp [Command.edge?, Sym2.eq_swap]⟩

theorem minimizeLoop_succeeds {sp : StdPattern} (hw : sp.WF) (nbr : ℕ → List ℕ) (hs : List StdPattern.Heuristic) (hv : Sound sp hs) :
    ∀ best, ∃ q, sp.minimizeLoop nbr hs best = .ok q := by
  induction hs with
  | nil => intro best; cases best <;> exact ⟨_, rfl⟩
  | cons f fs ih =>
    intro best
    have ih := ih fun g hg => hv g (by simp [hg])
    unfold StdPattern.minimizeLoop
    rcases hv f (by simp) with h1 | ⟨o, k, h1, h2⟩
    · rw [h1]; exact ih best
    · obtain ⟨t, ht, -⟩ := C20_reorder sp hw o h2
      rw [h1]
      simp only [bind, Except.bind, ht]
      cases k with
      | true => exact ⟨t, rfl⟩
      | false =>
        simp only [Bool.false_eq_true, if_false]
        split
        · exact ih _
        · exact ih _

theorem reorder_fields {sp : StdPattern} (hw : sp.WF) {o : List ℕ} (ho : ValidOrder sp o) {t : StdPattern} (h : sp.reorder o = .ok t) :
    t.nList = sp.nList ∧ t.mList.map MCmd.node = o := by
  obtain ⟨e, hm, -⟩ := reorder_ok hw.m_nodup h
  exact ⟨by rw [e], hm⟩

/-- What the chosen standardized pattern is. -/
theorem minimizeSpace_order {sp : StdPattern} (hw : sp.WF) (nbr : ℕ → List ℕ) (hs : List StdPattern.Heuristic) (hv : Sound sp hs) {t : StdPattern}
    (h : sp.minimizeSpace nbr hs = .ok t) : ∃ o, ValidOrder sp o ∧ sp.reorder o = .ok t ∧
      (o = sp.mList.map MCmd.node ∧ t = sp ∧ (∀ f ∈ hs, f sp = .ok none) ∨ ∃ f ∈ hs, ∃ k, f sp = .ok (some ⟨o, k⟩)) := by
  have hval : ∀ f ∈ hs, ∀ o k, f sp = .ok (some ⟨o, k⟩) → ValidOrder sp o := by
    intro f hf o k ho
    rcases hv f hf with h1 | ⟨o', k', h1, h2⟩
    · rw [h1] at ho; cases ho
    · rw [h1] at ho; cases ho; exact h2
  rcases minimizeLoop_spec sp nbr hs none t (by simp) h with ⟨f, hf, o, h1, h2⟩ | ⟨-, -, ⟨f, hf, o, h1, h2⟩ | ⟨b, hb, -⟩ | ⟨-, rfl, h4⟩⟩
  · exact ⟨o, hval f hf o _ h1, h2, Or.inr ⟨f, hf, _, h1⟩⟩
  · exact ⟨o, hval f hf o _ h1, h2, Or.inr ⟨f, hf, _, h1⟩⟩
  · cases hb
  · exact ⟨_, validOrder_unchanged _ hw, reorder_unchanged _ hw, Or.inl ⟨rfl, rfl, h4⟩⟩

section
variable {p : Pattern} (hp : p.OutputsOk) (hE : NoSelfLoop p.seq) {sp : StdPattern} (h : StdPattern.fromPattern p = .ok sp)
  {nbr : Finset (Sym2 ℕ) → ℕ → List ℕ} (hnbr : NbrOrd.Valid nbr)
include hp hE h hnbr

theorem minimize_general (hs : List StdPattern.Heuristic) (hv : Sound sp hs) :
    ∃ t q, sp.minimizeSpace (nbr sp.eSet) hs = .ok t ∧ t.WF ∧ t.eSet = sp.eSet ∧ t.inputs = sp.inputs ∧ t.nList = sp.nList ∧
      p.minimizeSpaceCopy nbr hs = .ok q ∧
      p.minimizeSpace nbr hs = .ok { p with seq := q.seq } ∧ Rearranges p q ∧ measuredIn q.seq = t.mList.map MCmd.node ∧
      q.maxSpace = t.maxSpace (nbr sp.eSet) := by
  have hw := fromPattern_wf hp hE h
  have hi := fromPattern_inv hE h
  obtain ⟨-, -, e1, e2⟩ := fromPattern_ok h
  obtain ⟨t, ht⟩ := minimizeLoop_succeeds hw (nbr sp.eSet) hs hv none
  obtain ⟨o, ho, hro, -⟩ := minimizeSpace_order hw (nbr sp.eSet) hs hv ht
  obtain ⟨t', ht', w1, w2, w3, w4, w5, w6⟩ := C20_reorder sp hw o ho
  rw [hro] at ht'; cases ht'
  obtain ⟨n1, n2⟩ := reorder_fields hw ho hro
  have hb : NbrOk t.eSet (nbr t.eSet) := hnbr _
  obtain ⟨q, hq⟩ := C19_succeeds t w1 _ hb
  obtain ⟨q1, q2, q3, q4, q5, q6, q7⟩ := C19_to_space_optimal t w1 _ hb q hq
  have hcopy : p.minimizeSpaceCopy nbr hs = .ok q := by
    unfold Pattern.minimizeSpaceCopy
    have ht2 : sp.minimizeSpace (nbr sp.eSet) hs = .ok t := ht
    simp only [h, ht2, bind, Except.bind, hq]
  refine ⟨t, q, ht, w1, w5, w3, n1, hcopy, ?_, ⟨q1, by rw [q2, w3, e1], by rw [q3, w4, e2], ?_, ?_, ?_⟩, q4, by rw [q7, w5]⟩
  · unfold Pattern.minimizeSpace
    simp only [hcopy, bind, Except.bind, pure, Except.pure]
  · intro n
    rw [q5, w3, n1, e1, ← List.mem_append, hi.nl]; rfl
  · rw [q4, w2, ← hi.ml]; exact ho.1
  · intro r
    obtain ⟨edges, hen⟩ := enumerates_exists sp.eSet
    refine (hi.sem r).trans (OpPhaseEq.of_eq fun ψ => ?_)
    rw [q6 edges (by rw [w5]; exact hen) r ψ, w6 edges hen, semCmds_cmds sp edges hen]

/-- **C69** `minimize_space(heuristics)` with any heuristics whose answers respect the domains: it succeeds, the result (in place, or a copy) does
the computation of the pattern, and it uses the least space among all ways to lay out the computation in its own measurement order. -/
theorem C69_heuristics (hs : List StdPattern.Heuristic) (hv : Sound sp hs) :
    ∃ q, p.minimizeSpaceCopy nbr hs = .ok q ∧ p.minimizeSpace nbr hs = .ok { p with seq := q.seq } ∧ Rearranges p q ∧
      ∀ p', Rival p p' → measuredIn p'.seq = measuredIn q.seq → q.maxSpace ≤ p'.maxSpace := by
  obtain ⟨t, q, -, w1, w5, w3, n1, h1, h2, h3, h4, h5⟩ := minimize_general hp hE h hnbr hs hv
  refine ⟨q, h1, h2, h3, fun p' hr hm => ?_⟩
  rw [h5, ← w5]
  refine C19_optimal t w1 _ (hnbr _) p' ?_
  rw [← h4, ← hm, w3, n1, w5]
  exact hr.competitor hE h

/-- **C69** `minimize_space([])` keeps the order of the measurements. -/
theorem C69_no_heuristic :
    ∃ q, p.minimizeSpaceCopy nbr [] = .ok q ∧ p.minimizeSpace nbr [] = .ok { p with seq := q.seq } ∧ Rearranges p q ∧
      measuredIn q.seq = measuredIn p.seq ∧ q.maxSpace ≤ p.maxSpace ∧
      ∀ p', Rival p p' → measuredIn p'.seq = measuredIn p.seq → q.maxSpace ≤ p'.maxSpace := by
  have hw := fromPattern_wf hp hE h
  have hv : Sound sp [] := fun f hf => by simp at hf
  obtain ⟨t, q, ht, w1, w5, w3, n1, h1, h2, h3, h4, h5⟩ := minimize_general hp hE h hnbr [] hv
  obtain ⟨q', h1', -, -, h6⟩ := C69_heuristics hp hE h hnbr [] hv
  rw [h1] at h1'; cases h1'
  have : t = sp := by cases ht; rfl
  subst this
  have hm : measuredIn q.seq = measuredIn p.seq := by rw [h4]; exact (fromPattern_inv hE h).ml
  refine ⟨q, h1, h2, h3, hm, ?_, fun p' hr he => h6 p' hr (he.trans hm.symm)⟩
  rw [h5]
  exact C19_optimal t hw _ (hnbr _) p (fromPattern_competitor p hE t h)

/-- **C69** `minimize_space()` with the heuristics that accept every pattern, `[greedy_degree, order_unchanged]`: it preserves the computation and
never increases the space. -/
theorem C69_greedy (choose : (ℕ → ℕ) → Finset ℕ → ℕ) (hc : ChooseOk choose) :
    ∃ q, p.minimizeSpaceCopy nbr [StdPattern.greedyDegree choose, StdPattern.orderUnchanged] = .ok q ∧ Rearranges p q ∧
      q.maxSpace ≤ p.maxSpace := by
  have hw := fromPattern_wf hp hE h
  obtain ⟨o, g1, g2⟩ := C20_greedy_valid sp hw choose hc
  have hv : Sound sp [StdPattern.greedyDegree choose, StdPattern.orderUnchanged] := by
    intro f hf
    simp only [List.mem_cons, List.not_mem_nil, or_false] at hf
    rcases hf with rfl | rfl
    · exact Or.inr ⟨o, false, g1, g2⟩
    · exact Or.inr ⟨_, false, rfl, validOrder_unchanged _ hw⟩
  obtain ⟨t, q, ht, w1, w5, w3, n1, h1, h2, h3, h4, h5⟩ := minimize_general hp hE h hnbr _ hv
  refine ⟨q, h1, h3, ?_⟩
  have hle : t.maxSpace (nbr sp.eSet) ≤ sp.maxSpace (nbr sp.eSet) := by
    refine C20_not_worse sp hw _ _ (by simp) ?_ t ht
    intro f hf o' t' ho'
    simp only [List.mem_cons, List.not_mem_nil, or_false] at hf
    rcases hf with rfl | rfl
    · rw [g1] at ho'; cases ho'
    · cases ho'
  rw [h5]
  exact hle.trans (C19_optimal sp hw _ (hnbr _) p (fromPattern_competitor p hE sp h))

end

/-- **C69** `minimize_space()` with the default heuristics, for every runnable pattern of |+⟩ states and for all the choices that Python makes:
it succeeds and does not raise any of the exceptions of the search of a flow; the result does the computation of the pattern; its space is at
most that of the pattern; if the pattern has a causal flow, its space is the least among *all* ways to lay out the computation, in any order of
the measurements. -/
theorem C69_minimize_space (p : Pattern) (hp : p.OutputsOk) (hE : NoSelfLoop p.seq)
    (hplus : ∀ n st, Command.N n st ∈ p.seq → st = PlanarState.plus) (sp : StdPattern)
    (h : StdPattern.fromPattern p = .ok sp) (enum : Finset (Sym2 ℕ) → List (ℕ × ℕ)) (he : EnumOrd.Valid enum)
    (ord : SetOrd) (hord : ord.Valid) (choose : (ℕ → ℕ) → Finset ℕ → ℕ) (hc : ChooseOk choose)
    (nbr : Finset (Sym2 ℕ) → ℕ → List ℕ) (hnbr : NbrOrd.Valid nbr) :
    ∃ q, p.minimizeSpaceCopy nbr (defaultHeuristics enum ord choose) = .ok q ∧
      p.minimizeSpace nbr (defaultHeuristics enum ord choose) = .ok { p with seq := q.seq } ∧
      Rearranges p q ∧ q.maxSpace ≤ p.maxSpace ∧
      ∀ f, p.toCausalFlow enum ord = .ok f → ∀ p', Rival p p' → q.maxSpace ≤ p'.maxSpace := by
  have hw := fromPattern_wf hp hE h
  have hi := fromPattern_inv hE h
  obtain ⟨o, g1, g2⟩ := C20_greedy_valid sp hw choose hc
  have hcf := causalFlowHeuristic_spec hp hE hplus h he hord
  have hord' := causalFlow_order hp hE hplus h he hord
  have hv : Sound sp (defaultHeuristics enum ord choose) := by
    intro f hf
    simp only [defaultHeuristics, List.mem_cons, List.not_mem_nil, or_false] at hf
    rcases hf with rfl | rfl | rfl
    · rcases hcf with ⟨f, hf, h1⟩ | ⟨-, h1⟩
      · exact Or.inr ⟨_, _, h1, (hord' f hf).1⟩
      · exact Or.inl h1
    · exact Or.inr ⟨o, false, g1, g2⟩
    · exact Or.inr ⟨_, false, rfl, validOrder_unchanged _ hw⟩
  obtain ⟨t, q, ht, w1, w5, w3, n1, h1, h2, h3, h4, h5⟩ := minimize_general hp hE h hnbr _ hv
  have hopt : ∀ f, p.toCausalFlow enum ord = .ok f → ∀ p', Rival p p' → q.maxSpace ≤ p'.maxSpace := by
    intro f hf p' hr
    rcases hcf with ⟨f', hf', hh⟩ | ⟨hno, -⟩
    · rw [hf] at hf'; cases hf'
      obtain ⟨hvo, g, hg⟩ := hord' f hf
      have hro : sp.reorder (f.measurementOrder ord) = .ok t := by
        unfold StdPattern.minimizeSpace defaultHeuristics StdPattern.minimizeLoop at ht
        rw [hh] at ht
        simp only [bind, Except.bind] at ht
        cases hro : sp.reorder (f.measurementOrder ord) with
        | error e => rw [hro] at ht; cases ht
        | ok t' => rw [hro] at ht; exact ht
      obtain ⟨-, n2⟩ := reorder_fields hw hvo hro
      rw [h5, ← w5]
      have hpm : (measuredIn p'.seq).Perm (t.mList.map MCmd.node) := by
        rw [n2]
        refine hr.measured.trans ?_
        rw [← hi.ml]; exact hvo.1.symm
      refine C20_causal_flow_optimal t w1 _ (hnbr _) g ?_ p' (measuredIn p'.seq) hpm ?_
      · rw [n2, w3, w5]; exact hg
      · rw [w3, n1, w5]; exact hr.competitor hE h
    · exact absurd hf (hno f)
  refine ⟨q, h1, h2, h3, ?_, hopt⟩
  rcases hcf with ⟨f, hf, -⟩ | ⟨hno, hn⟩
  · refine hopt f hf p ⟨rfl, ?_, fun _ h => h, ?_, List.Perm.refl _⟩
    · exact (checkRunnability_iff _).2 (fromPattern_ok h).1
    · intro u v ho
      have := ho.pos
      unfold edgeCount at this
      obtain ⟨c, hc'⟩ := List.exists_mem_of_length_pos this
      rw [List.mem_filter] at hc'
      obtain ⟨hc1, hc2⟩ := hc'
      cases c with
      | E a b =>
        simp only [decide_eq_true_eq] at hc2
        rcases hc2 with ⟨rfl, rfl⟩ | ⟨rfl, rfl⟩
        · exact Or.inl hc1
        · exact Or.inr hc1
      | _ => simp at hc2
  · have hle : t.maxSpace (nbr sp.eSet) ≤ sp.maxSpace (nbr sp.eSet) := by
      refine C20_not_worse sp hw _ _ (by simp [defaultHeuristics]) ?_ t ht
      intro f hf o' t' ho'
      simp only [defaultHeuristics, List.mem_cons, List.not_mem_nil, or_false] at hf
      rcases hf with rfl | rfl | rfl
      · rw [hn] at ho'; cases ho'
      · rw [g1] at ho'; cases ho'
      · cases ho'
    rw [h5]
    exact hle.trans (C19_optimal sp hw _ (hnbr _) p (fromPattern_competitor p hE sp h))

/-- **C69** The default heuristics raise `ValueError` when a node is prepared in another state than |+⟩ (`causal_flow` only catches `TypeError`
and `FlowError`), although the pattern can be minimized (`C69_greedy`). -/
theorem C69_not_plus_raises (p : Pattern) (sp : StdPattern) (h : StdPattern.fromPattern p = .ok sp) (n : ℕ) (st : PlanarState)
    (hn : Command.N n st ∈ p.seq) (hst : st ≠ PlanarState.plus) (enum : Finset (Sym2 ℕ) → List (ℕ × ℕ)) (ord : SetOrd)
    (choose : (ℕ → ℕ) → Finset ℕ → ℕ) (nbr : Finset (Sym2 ℕ) → ℕ → List ℕ) :
    p.minimizeSpaceCopy nbr (defaultHeuristics enum ord choose) = .error .valueError ∧
    p.minimizeSpace nbr (defaultHeuristics enum ord choose) = .error .valueError := by
  have h1 := (C33_not_plus_raises p sp h n st hn hst (enum sp.eSet) ord).2
  have h2 : StdPattern.causalFlowHeuristic enum ord sp = .error .valueError := by
    unfold StdPattern.causalFlowHeuristic StdPattern.causalFlowOf
    simp only [h1, bind, Except.bind]
  have h3 : p.minimizeSpaceCopy nbr (defaultHeuristics enum ord choose) = .error .valueError := by
    unfold Pattern.minimizeSpaceCopy StdPattern.minimizeSpace defaultHeuristics StdPattern.minimizeLoop
    simp only [h, h2, bind, Except.bind]
  refine ⟨h3, ?_⟩
  unfold Pattern.minimizeSpace
  simp only [h3, bind, Except.bind]

/-- **C69** A pattern that cannot be standardized is refused. -/
theorem C69_refused (p : Pattern) (e : PyErr) (h : StdPattern.fromPattern p = .error e) (nbr : Finset (Sym2 ℕ) → ℕ → List ℕ)
    (hs : List StdPattern.Heuristic) : p.minimizeSpaceCopy nbr hs = .error e ∧ p.minimizeSpace nbr hs = .error e := by
  have h3 : p.minimizeSpaceCopy nbr hs = .error e := by
    unfold Pattern.minimizeSpaceCopy
    simp only [h, bind, Except.bind]
  refine ⟨h3, ?_⟩
  unfold Pattern.minimizeSpace
  simp only [h3, bind, Except.bind]

/-! ### Instances -/

theorem stdExample_causal : ∃ f, stdExample.toCausalFlow exEnum exOrd = .ok f := by
  unfold Pattern.toCausalFlow Pattern.toXZCorrections StdPattern.toXZCorrections
  simp only [stdExampleSP_eq, stdExampleSP_og, bind, Except.bind]
  exact ⟨_, rfl⟩

theorem exists_choose : ∃ choose, ChooseOk choose := by
  classical
  have : ∀ (deg : ℕ → ℕ) (s : Finset ℕ), s ≠ ∅ → ∃ x ∈ s, ∀ k ∈ s, deg x ≤ deg k :=
    fun deg s hs => Finset.exists_min_image s deg (Finset.nonempty_iff_ne_empty.2 hs)
  refine ⟨fun deg s => if h : s ≠ ∅ then (this deg s h).choose else 0, fun deg s hs => ?_⟩
  simp only [dif_pos hs]
  exact (this deg s hs).choose_spec

/-- The hypotheses of `C69_minimize_space` are met by a pattern with a causal flow. -/
example : ∃ choose, ChooseOk choose ∧ ∃ q, stdExample.minimizeSpaceCopy sortedNbr (defaultHeuristics exEnum exOrd choose) = .ok q ∧
    Rearranges stdExample q ∧ ∀ p', Rival stdExample p' → q.maxSpace ≤ p'.maxSpace := by
  obtain ⟨choose, hc⟩ := exists_choose
  obtain ⟨q, h1, -, h3, -, h5⟩ := C69_minimize_space stdExample stdExample_outputsOk stdExample_noSelfLoop stdExample_plus stdExampleSP
    stdExampleSP_eq exEnum exEnum_valid exOrd exOrd_valid choose hc sortedNbr sortedNbr_valid
  obtain ⟨f, hf⟩ := stdExample_causal
  exact ⟨choose, hc, q, h1, h3, h5 f hf⟩

/-- The standard form of the example, which needs three qubits. -/
noncomputable def threeExample : Pattern :=
  (Pattern.empty [0]).extend [.N 1 .plus, .N 2 .plus, .E 0 1, .E 1 2, .M 0 (.bloch ⟨1/4, .XY⟩) ∅ ∅, .M 1 (.bloch ⟨1/8, .XY⟩) {0} ∅,
    .Z 2 {0}, .X 2 {1}]

example : threeExample.maxSpace = 3 ∧ stdExample.maxSpace = 2 := ⟨rfl, rfl⟩

/-- `states.py:86` `BasicStates.ZERO`. -/
noncomputable def zeroState : PlanarState := ⟨.XZ, 0⟩

/-- A pattern that prepares a |0⟩ state: the default heuristics raise, `[greedy_degree, order_unchanged]` do not. -/
noncomputable def notPlusExample : Pattern := (Pattern.empty []).extend [.N 0 zeroState, .N 1 .plus, .E 0 1, .M 0 (.bloch ⟨1/4, .XY⟩) ∅ ∅]

theorem zero_ne_plus : zeroState ≠ PlanarState.plus := by
  intro h
  have := congrArg PlanarState.plane h
  cases this

example (enum : Finset (Sym2 ℕ) → List (ℕ × ℕ)) (choose : (ℕ → ℕ) → Finset ℕ → ℕ) :
    ∃ sp, StdPattern.fromPattern notPlusExample = .ok sp ∧
      notPlusExample.minimizeSpaceCopy sortedNbr (defaultHeuristics enum exOrd choose) = .error .valueError := by
  refine ⟨_, rfl, (C69_not_plus_raises notPlusExample _ rfl 0 zeroState ?_ zero_ne_plus enum exOrd choose sortedNbr).1⟩
  have : notPlusExample.seq = [.N 0 zeroState, .N 1 .plus, .E 0 1, .M 0 (.bloch ⟨1/4, .XY⟩) ∅ ∅] := rfl
  rw [this]; simp

end Graphix
