import Verif.Proofs.RemoveClifford
import Verif.Props.FindGpflow

/-!
# C17: `remove_local_clifford_commands`
-/

namespace Graphix

open Function

/-- The loop over the commands. -/
theorem removeCliffordLoop_spec {ord : SetOrd} (hord : ord.Valid) {mmo : MulOrd} (hmmo : mmo.Valid) {I : List ℕ} {M0 : ℕ} :
    ∀ (l pre : List Command) (st : RemoveClifford) (g : Equiv.Perm ℕ) (k : ℕ), RCInv I M0 pre st g k → Runnable I (pre ++ l) →
      (∀ n ∈ introduced I (pre ++ l), n ≤ M0) → (∀ n, Command.C n Clifford.I ∉ l) →
      ∃ st' g' k', removeCliffordLoop ord mmo l st = .ok st' ∧ RCInv I M0 (pre ++ l) st' g' k' := by
  intro l
  induction l with
  | nil => intro pre st g k h _ _ _; exact ⟨st, g, k, rfl, by simpa using h⟩
  | cons c l ih =>
    intro pre st g k h hr hM hI
    have e : pre ++ c :: l = (pre ++ [c]) ++ l := by simp
    rw [e] at hr hM ⊢
    have hM1 : ∀ n ∈ introduced I (pre ++ [c]), n ≤ M0 := fun n hn => hM n (by
      rw [introduced_append]; exact List.mem_append_left _ hn)
    have hI' : ∀ n, Command.C n Clifford.I ∉ l := fun n hn => hI n (by simp [hn])
    by_cases hc : ∃ n q, c = .C n q
    · obtain ⟨n, q, rfl⟩ := hc
      have hq : q ≠ Clifford.I := by rintro rfl; exact hI n (by simp)
      obtain ⟨cp, len, p1, p2, p3, p4, p5, p6, p7, p8, -, p9⟩ := clifford_pattern q ord hord mmo hmmo
      have hcr : Runnable [0] cp.seq := by rw [← p4]; exact (checkRunnability_iff cp).1 p2
      have hM2 : ∀ m ∈ introduced I pre, m ≤ M0 := fun n hn => hM1 n (by
        rw [introduced_append]; exact List.mem_append_left _ hn)
      have hstep := h.stepC hr.prefix hM2 hcr p3 p4 p5 p6 (p7 hq) p8 p9
      obtain ⟨st', g', k', h1, h2⟩ := ih _ _ _ _ hstep hr hM hI'
      refine ⟨st', g', k', ?_, h2⟩
      have hln : Live I pre n := hr.prefix.last
      have hgn : Pattern.applyMapping st.mapping n ≤ st.maxNode := by
        have hn0 := hM2 n hln.1
        rw [h.map n hn0]
        exact h.bnd n (le_trans hn0 h.le)
      obtain ⟨rp, r1, -, -, -, -, r2, -⟩ := C21_reindex cp p3 p2 (cliffordRename (Pattern.applyMapping st.mapping n) st.maxNode)
        fun a _ b _ e => cliffordRename_inj hgn a b e
      rw [removeCliffordLoop, p1]
      show (match cp.outputs with
        | [outputNode] => do
          let renamed ← cp.reindexFunc (cliffordRename (Pattern.applyMapping st.mapping n) st.maxNode)
          let maxNode := st.maxNode + outputNode
          removeCliffordLoop ord mmo l ⟨st.pattern.extend renamed.seq, st.mapping.set n maxNode, maxNode⟩
        | _ => Except.error PyErr.valueError) = _
      rw [p5, r1]
      show removeCliffordLoop ord mmo l ⟨st.pattern.extend rp.seq, st.mapping.set n (st.maxNode + len), st.maxNode + len⟩ = _
      rw [r2]
      exact h1
    · have hstep := h.step (fun n q e => hc ⟨n, q, e⟩) hr.prefix hM1
      obtain ⟨st', g', k', h1, h2⟩ := ih _ _ _ _ hstep hr hM hI'
      refine ⟨st', g', k', ?_, h2⟩
      rw [← h1]
      cases c <;> first | rfl | exact absurd ⟨_, _, rfl⟩ hc

/-- What it means for `q` to replace the pattern `p`, up to names of nodes given by `g`: same inputs, the outputs in the same order,
the measured nodes of `p` are measured under their new names; and for all outcomes of the measurements of `q`, the map of `q` is,
up to a global phase that does not depend on the input state, a constant factor `(1 / √2) ^ k` (the `k` additional measurements
have uniform outcomes) times the map of `p` in the corresponding branch (the new name of `n` is `g n`). -/
def Replaces (q p : Pattern) (g : Equiv.Perm ℕ) (k : ℕ) : Prop :=
  q.inputs = p.inputs ∧ q.outputs = p.outputs.map g ∧ (∀ n ∈ measuredIn p.seq, g n ∈ measuredIn q.seq) ∧
    p.preparedNodes ⊆ q.preparedNodes ∧
    ∀ r, OpPhaseEqOn (Absent q.preparedNodes) (semCmds r q.seq) fun ψ =>
      (1 / (Real.sqrt 2 : ℂ)) ^ k • fun b => semCmds (fun n => r (g n)) p.seq ψ fun n => b (g n)

/-- **C17** (for patterns without identity gates) `remove_local_clifford_commands` succeeds on every runnable pattern; the result has
no `C` command, it is runnable, and it implements the map of the original pattern. -/
theorem C17_remove_local_clifford_partial (p : Pattern) (hp : p.OutputsOk) (hr : p.checkRunnability = .ok ())
    (hI : ∀ n, Command.C n Clifford.I ∉ p.seq) (ord : SetOrd) (hord : ord.Valid) (mmo : MulOrd) (hmmo : mmo.Valid) :
    ∃ q, removeLocalCliffordCommands ord mmo p = .ok q ∧ q.checkRunnability = .ok () ∧ q.OutputsOk ∧
      (∀ n c, Command.C n c ∉ q.seq) ∧ ∃ g k, Replaces q p g k := by
  have hr' := (checkRunnability_iff p).1 hr
  unfold removeLocalCliffordCommands
  by_cases hn : p.nodes = ∅
  · rw [if_pos hn]
    refine ⟨p, rfl, hr, hp, ?_, 1, 0, rfl, ?_, fun n hn => hn, subset_refl _, fun r => ⟨1, by simp, fun ψ _ => ?_⟩⟩
    · intro n c hc
      have := hr'.mentions_introduced _ hc n (by simp [Command.mentions])
      rw [← p.mem_nodes, hn] at this
      simp at this
    · simp
    · simp
  · rw [if_neg hn]
    set M0 := p.nodes.sup id with hM0
    have hM : ∀ n ∈ introduced p.inputs p.seq, n ≤ M0 := fun n hn =>
      Finset.le_sup (f := id) ((p.mem_nodes n).2 hn)
    have h0 : RCInv p.inputs M0 [] ⟨Pattern.empty p.inputs, [], M0⟩ 1 0 := by
      constructor
      · exact le_refl _
      · rfl
      · intro n _; rfl
      · intro n hn; exact hn
      · intro n _; rfl
      · intro n _ _; rfl
      · exact runnable_nil _
      · intro m
        show m ∈ introduced p.inputs [] ↔ m ∈ introduced p.inputs [] ∨ M0 < m ∧ m ≤ M0
        constructor
        · exact Or.inl
        · rintro (h | h)
          · exact h
          · omega
      · intro m
        show Live p.inputs [] m ↔ _
        simp
      · intro n hn; simp [measuredIn] at hn
      · intro n c hc; simp [Pattern.empty] at hc
      · intro r
        refine ⟨1, by simp, fun ψ _ => ?_⟩
        simp only [pow_zero, one_smul]
        rfl
    obtain ⟨st, g, k, h1, h2⟩ := removeCliffordLoop_spec hord hmmo p.seq [] _ 1 0 h0 (by simpa using hr') (by simpa using hM) hI
    rw [List.nil_append] at h2
    have hon : ∀ n ∈ p.outputs, n ≤ M0 := fun n hn => hM n ((hp.outputs n).1 hn).1
    have hmap : p.outputs.map (Pattern.applyMapping st.mapping) = p.outputs.map g :=
      List.map_congr_left fun n hn => h2.map n (hon n hn)
    have hnd : (p.outputs.map g).Nodup := hp.outputs_nodup.map g.injective
    have hlive : ∀ m, m ∈ p.outputs.map g ↔ Live p.inputs st.pattern.seq m := by
      intro m
      rw [h2.live, List.mem_map]
      constructor
      · rintro ⟨n, hn, rfl⟩; exact ⟨n, (hp.outputs n).1 hn, rfl⟩
      · rintro ⟨n, hn, rfl⟩; exact ⟨n, (hp.outputs n).2 hn, rfl⟩
    have hperm : assertPermutation st.pattern.outputs (p.outputs.map g) = .ok () := by
      rw [assertPermutation_ok_iff]
      refine ⟨?_, hnd⟩
      rw [h2.ext, C08_outputs _ hp.inputs_nodup _ h2.run]
      ext m
      simp only [List.mem_toFinset, List.mem_filter, decide_eq_true_eq]
      exact hlive m
    have hinp : st.pattern.inputs = p.inputs := by rw [h2.ext, (C08_count _ _).2.1]
    refine ⟨{ st.pattern with outputs := p.outputs.map g }, ?_, ?_, ?_, h2.noC, g, k, hinp, rfl, h2.meas, ?_, h2.sem⟩
    · simp only [h1, bind, Except.bind, hmap, Pattern.reorderOutputNodes, hperm]; rfl
    · rw [checkRunnability_iff]; show Runnable st.pattern.inputs st.pattern.seq; rw [hinp]; exact h2.run
    · refine ⟨?_, hnd, fun n => ?_⟩
      · show st.pattern.inputs.Nodup; rw [hinp]; exact hp.inputs_nodup
      · show n ∈ p.outputs.map g ↔ Live st.pattern.inputs st.pattern.seq n; rw [hinp]; exact hlive n
    · intro n hn
      have hn : n ∈ p.seq.filterMap Command.prepared? := by simpa [Pattern.preparedNodes] using hn
      have hi : n ∈ introduced p.inputs st.pattern.seq := (h2.intr n).2 (Or.inl (List.mem_append_right _ hn))
      have hnd := hr'.introduced_nodup hp.inputs_nodup
      rcases List.mem_append.1 hi with h | h
      · exact absurd rfl ((List.nodup_append.1 hnd).2.2 n h n hn)
      · simpa [Pattern.preparedNodes] using h

/-- **C17**, negation of the full statement: an identity gate on a node that is not the highest one makes the function raise, on a
runnable pattern. -/
theorem C17_identity_raises (ord : SetOrd) (hord : ord.Valid) (mmo : MulOrd) (hmmo : mmo.Valid) :
    ∃ p : Pattern, p.OutputsOk ∧ p.checkRunnability = .ok () ∧ removeLocalCliffordCommands ord mmo p = .error .patternError := by
  have hrun : (⟨[0, 1], 2, [.C 0 Clifford.I], [0, 1]⟩ : Pattern).checkRunnability = .ok () := by decide
  refine ⟨⟨[0, 1], 2, [.C 0 Clifford.I], [0, 1]⟩, ⟨by simp, by simp, ?_⟩, hrun, ?_⟩
  · intro n; simp [Live, introduced, measuredIn, Command.prepared?, Command.measured?]
  obtain ⟨cp, len, p1, p2, p3, p4, p5, p6, p7, p8, p9, -⟩ := clifford_pattern Clifford.I ord hord mmo hmmo
  have hlen : len = 0 := p9
  subst hlen
  obtain ⟨rp, r1, -⟩ := C21_reindex cp p3 p2 (cliffordRename 0 1) fun a _ b _ e => cliffordRename_inj (by omega) a b e
  have hnodes : (⟨[0, 1], 2, [.C 0 Clifford.I], [0, 1]⟩ : Pattern).nodes = {0, 1} := by decide
  unfold removeLocalCliffordCommands
  rw [hnodes, if_neg (by decide)]
  have hsup : ({0, 1} : Finset ℕ).sup id = 1 := by decide
  rw [hsup]
  show (do
    let st ← removeCliffordLoop ord mmo [.C 0 Clifford.I] ⟨Pattern.empty [0, 1], [], 1⟩
    st.pattern.reorderOutputNodes ([0, 1].map (Pattern.applyMapping st.mapping))) = _
  have : removeCliffordLoop ord mmo [.C 0 Clifford.I] ⟨Pattern.empty [0, 1], [], 1⟩ =
      .ok ⟨(Pattern.empty [0, 1]).extend rp.seq, [(0, 1)], 1⟩ := by
    rw [removeCliffordLoop, p1]
    show (match cp.outputs with
        | [outputNode] => do
          let renamed ← cp.reindexFunc (cliffordRename 0 1)
          let maxNode := 1 + outputNode
          removeCliffordLoop ord mmo [] ⟨(Pattern.empty [0, 1]).extend renamed.seq, PyDict.set [] 0 maxNode, maxNode⟩
        | _ => Except.error PyErr.valueError) = _
    rw [p5, r1]
    rfl
  rw [this]
  show (do assertPermutation ((Pattern.empty [0, 1]).extend rp.seq).outputs [1, 1]; _) = _
  have h2 : assertPermutation ((Pattern.empty [0, 1]).extend rp.seq).outputs [1, 1] = .error .patternError := by
    unfold assertPermutation
    split
    · rfl
    · rfl
  rw [h2]
  rfl

/-- The hypotheses of `C17_remove_local_clifford_partial` are met by a pattern with gates before and after a measurement. -/
noncomputable def cliffordExample : Pattern :=
  (Pattern.empty [0]).extend [.C 0 Clifford.S, .N 1 PlanarState.plus, .E 0 1, .M 0 (.pauli ⟨.X, .plus⟩) ∅ ∅, .X 1 {0}, .C 1 Clifford.H]

example : cliffordExample.OutputsOk ∧ cliffordExample.checkRunnability = .ok () ∧ ∀ n, Command.C n Clifford.I ∉ cliffordExample.seq := by
  have hseq : cliffordExample.seq = [.C 0 Clifford.S, .N 1 PlanarState.plus, .E 0 1, .M 0 (.pauli ⟨.X, .plus⟩) ∅ ∅, .X 1 {0}, .C 1 Clifford.H] := rfl
  refine ⟨⟨by decide, by decide, ?_⟩, by rfl, ?_⟩
  · intro n
    show n ∈ [1] ↔ _
    rw [Live, hseq]
    simp [introduced, measuredIn, Command.prepared?, Command.measured?, cliffordExample, Pattern.extend, Pattern.add, Pattern.empty]
    omega
  · intro n
    rw [hseq]
    have h1 : Clifford.I ≠ Clifford.S := by decide
    have h2 : Clifford.I ≠ Clifford.H := by decide
    simp [h1, h2]

end Graphix
