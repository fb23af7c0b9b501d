import Verif.Proofs.TensorNetGraph
import Verif.Props.PatternFlow
import Verif.Props.Parallelize
import Verif.Props.TotalRun
import Verif.Props.FlowRoundTrip

/-!
# Property C63: the tensor-network backend
-/

namespace Graphix

open Function StdPattern TensorNet Pattern
open scoped symmDiff

/-- What is assumed of the environment of a run: the edges and the nodes of a graph are enumerated once each, and the two tensors that stand for
CZ are factors of CZ. -/
structure TnEnv.Ok (env : TnEnv) : Prop where
  enum : EnumOrd.Valid env.enum
  nodeOrd : ∀ s, (env.nodeOrd s).Nodup ∧ ∀ n, n ∈ env.nodeOrd s ↔ n ∈ s
  cz : CzFactors env.cz1 env.cz2

/-! ### The input nodes -/

theorem addQubits_rep : ∀ (ns : List ℕ) {tn : TensorNet} {L J : Finset ℕ} {ψ : QState}, ns.Nodup → (∀ n ∈ ns, n ∉ L) → Represents tn L J ψ → Sep tn L →
    ∃ tn', tn.addQubitsLoop ns (List.replicate ns.length (.name "plus")) = .ok tn' ∧
      Represents tn' (L ∪ ns.toFinset) J (fun b => prodState ns (List.replicate ns.length PlanarState.plus) b * ψ b) ∧
      Sep tn' (L ∪ ns.toFinset) ∧ tn'.outputs = tn.outputs
  | [], tn, L, J, ψ, _, _, h, hs => ⟨tn, rfl, by simpa [prodState] using h, by simpa using hs, rfl⟩
  | n :: ns, tn, L, J, ψ, hnd, hL, h, hs => by
    rw [List.nodup_cons] at hnd
    have hn := hL n (by simp)
    have h1 := h.addVec hn PlanarState.plus.vec true
    have hs1 := h.sep_addVec hs hn PlanarState.plus.vec true
    obtain ⟨tn', e1, e2, e3, e4⟩ := addQubits_rep ns hnd.2 (by
      intro m hm
      rw [Finset.mem_insert, not_or]
      exact ⟨fun hc => hnd.1 (hc ▸ hm), hL m (by simp [hm])⟩) h1 hs1
    have hset : insert n L ∪ ns.toFinset = L ∪ (n :: ns).toFinset := by
      ext k; simp only [Finset.mem_union, Finset.mem_insert, List.mem_toFinset, List.mem_cons]; tauto
    rw [hset] at e2 e3
    refine ⟨tn', e1, e2.congr_state ?_, e3, e4⟩
    funext b
    simp only [List.length_cons, List.replicate_succ, prodState, prep]
    ring

theorem live_nil (inputs : List ℕ) : (liveList inputs []).toFinset = inputs.toFinset := by
  ext n; rw [mem_live_finset]; simp [Live, introduced, measuredIn]

/-- The beginning of a run, for the sequential preparation. -/
theorem start_seq (env : TnEnv) {inputs : List ℕ} (hi : inputs.Nodup) (iso : Finset ℕ) (outs : List ℕ) :
    ∃ net, (TensorNet.empty (some outs)).addQubits inputs = .ok net ∧
      TnInv env inputs (InputData.toState inputs (.state PlanarState.plus)) iso outs false [] ⟨net, false, iso, []⟩ := by
  obtain ⟨net, h1, h2, h3, h4⟩ := addQubits_rep inputs (L := ∅) hi (by simp) (Represents.empty (some outs)) (by intro t ht; simp [TensorNet.empty] at ht)
  rw [Finset.empty_union] at h2 h3
  refine ⟨net, h1, ⟨by simp [measuredIn], rfl, rfl, h4, by simp, by rw [live_nil]; exact h3, fun r _ => ⟨∅, 1, by simp, ?_⟩⟩⟩
  rw [live_nil]
  refine h2.congr_state ?_
  funext b
  simp [InputData.toState, measuredIn]

/-! ### The graph state -/

/-- Preparations of `|+⟩` states and CZ gates prepare a graph state. -/
theorem semCmds_prepare (r : ℕ → Bool) : ∀ (l : List Command) (E0 : Finset (Sym2 ℕ)) (ψ : QState),
    (∀ c ∈ l, (∃ n, c = .N n PlanarState.plus) ∨ ∃ u v, c = .E u v) →
    ∃ E1 : Finset (Sym2 ℕ), semCmds r l (czSet E0 ψ) = (1 / (Real.sqrt 2 : ℂ)) ^ (l.filterMap Command.prepared?).length • czSet E1 ψ ∧
      ∀ u v, s(u, v) ∈ E1 ↔ (s(u, v) ∈ E0 ↔ ¬ Odd (edgeCount l u v))
  | [], E0, ψ, _ => ⟨E0, by simp, by simp [edgeCount]⟩
  | c :: l, E0, ψ, h => by
    have hl : ∀ c ∈ l, (∃ n, c = .N n PlanarState.plus) ∨ ∃ u v, c = .E u v := fun c hc => h c (by simp [hc])
    have hcount : ∀ u v, edgeCount (c :: l) u v = edgeCount [c] u v + edgeCount l u v := fun u v => edgeCount_append [c] l u v
    rcases h c (by simp) with ⟨n, rfl⟩ | ⟨x, y, rfl⟩
    · obtain ⟨E1, h1, h2⟩ := semCmds_prepare r l E0 ψ hl
      refine ⟨E1, ?_, fun u v => ?_⟩
      · rw [semCmds_cons]
        simp only [Command.sem]
        rw [prep_plus, semCmds_homog, h1, smul_smul]
        simp only [List.filterMap_cons, Command.prepared?, List.length_cons, pow_succ]
        rw [mul_comm]
      · rw [hcount, h2]; simp [edgeCount]
    · obtain ⟨E1, h1, h2⟩ := semCmds_prepare r l (E0 ∆ {s(x, y)}) ψ hl
      refine ⟨E1, ?_, fun u v => ?_⟩
      · rw [semCmds_cons]
        simp only [Command.sem]
        rw [← czSet_toggle, h1]
        rfl
      · have key : s(u, v) ∈ E0 ∆ {s(x, y)} ↔ (s(u, v) ∈ E0 ↔ ¬ Odd (edgeCount [Command.E x y] u v)) := by
          rw [Finset.mem_symmDiff, Finset.mem_singleton, Sym2.eq_iff]
          unfold edgeCount
          by_cases hxy : (x = u ∧ y = v) ∨ (x = v ∧ y = u)
          · have : (u = x ∧ v = y) ∨ (u = y ∧ v = x) := by
              rcases hxy with ⟨a, b⟩ | ⟨a, b⟩
              · exact Or.inl ⟨a.symm, b.symm⟩
              · exact Or.inr ⟨b.symm, a.symm⟩
            simp [hxy, this]
          · have : ¬ ((u = x ∧ v = y) ∨ (u = y ∧ v = x)) := by
              rintro (⟨a, b⟩ | ⟨a, b⟩)
              · exact hxy (Or.inl ⟨a.symm, b.symm⟩)
              · exact hxy (Or.inr ⟨b.symm, a.symm⟩)
            simp [hxy, this]
        rw [h2, key, hcount, Nat.odd_add]
        by_cases h1 : Odd (edgeCount [Command.E x y] u v) <;> by_cases h2 : Odd (edgeCount l u v) <;>
          simp [h1, h2, ← Nat.not_odd_iff_even]

/-- A pattern in standard form: first the preparations and the CZ gates. -/
theorem standard_split {l : List Command} (h : Pattern.isStandardSeq l false = true) :
    ∃ a b, l = a ++ b ∧ (∀ c ∈ a, kindOf c = .N ∨ kindOf c = .E) ∧ ∀ c ∈ b, kindOf c ≠ .N ∧ kindOf c ≠ .E := by
  unfold Pattern.isStandardSeq at h
  simp only [] at h
  set l1 := l.dropWhile (fun c => kindOf c = .N) with h1
  set l2 := l1.dropWhile (fun c => kindOf c = .E) with h2
  set l3 := l2.dropWhile (fun c => kindOf c = .M) with h3
  refine ⟨l.takeWhile (fun c => kindOf c = .N) ++ l1.takeWhile (fun c => kindOf c = .E), l2, ?_, ?_, ?_⟩
  · rw [List.append_assoc, h2, List.takeWhile_append_dropWhile, h1, List.takeWhile_append_dropWhile]
  · intro c hc
    rcases List.mem_append.1 hc with hc | hc
    · exact .inl (by simpa using takeWhile_all _ _ c hc)
    · exact .inr (by simpa using takeWhile_all _ _ c hc)
  · simp only [Bool.false_eq_true, if_false, List.isEmpty_iff] at h
    intro c hc
    rw [← List.takeWhile_append_dropWhile (p := fun c => decide (kindOf c = .M)) (l := l2), ← h3] at hc
    rcases List.mem_append.1 hc with hc | hc
    · have : kindOf c = .M := by simpa using takeWhile_all _ _ c hc
      rw [this]; exact ⟨by simp, by simp⟩
    · have := (dropWhile_nil_iff _ _).1 h c hc
      simp only [Bool.or_eq_true, decide_eq_true_eq] at this
      rcases this with (h | h) | h <;> rw [h] <;> exact ⟨by simp, by simp⟩

theorem tn_loop_append (env : TnEnv) : ∀ (a b : List Command) (st : TnState), st.loop env (a ++ b) = (do let st ← st.loop env a; st.loop env b)
  | [], b, st => rfl
  | c :: a, b, st => by
    simp only [List.cons_append, TnState.loop]
    cases h : st.step env c with
    | error e => rfl
    | ok st1 => exact tn_loop_append env a b st1

/-- With the parallel preparation, the preparations and the CZ gates are skipped. -/
theorem loop_parallel {env : TnEnv} {st : TnState} (hp : st.parallel = true) : ∀ l : List Command,
    (∀ c ∈ l, (∃ n, c = .N n PlanarState.plus) ∨ ∃ u v, c = .E u v) → st.loop env l = .ok st
  | [], _ => rfl
  | c :: l, h => by
    have h1 : st.step env c = .ok st := by
      rcases h c (by simp) with ⟨n, rfl⟩ | ⟨u, v, rfl⟩
      · simp only [TnState.step, TnState.addNode, TnState.addNodes, ne_eq, not_true_eq_false, if_false, hp, if_true]
        rfl
      · simp only [TnState.step, TnState.entangleNodes, hp, if_true]
        rfl
    unfold TnState.loop
    rw [h1]
    exact loop_parallel hp l fun c hc => h c (by simp [hc])

theorem prodState_plus (b : Basis) : ∀ ns : List ℕ, prodState ns (List.replicate ns.length PlanarState.plus) b = (1 / (Real.sqrt 2 : ℂ)) ^ ns.length
  | [] => by simp [prodState]
  | n :: ns => by
    simp only [List.length_cons, List.replicate_succ, prodState]
    rw [prep_plus, Pi.smul_apply, smul_eq_mul, prodState_plus b ns, pow_succ]; ring

/-- What the construction of the backend reads of the pattern. -/
structure GraphOf (p : Pattern) (es : List (ℕ × ℕ)) (og : OpenGraph) : Prop where
  nodes : ∀ n, n ∈ og.nodes ↔ n ∈ introduced p.inputs p.seq
  edges : og.edges = es
  nodup : (es.map fun e => s(e.1, e.2)).Nodup
  adj : ∀ u v, s(u, v) ∈ (es.map fun e => s(e.1, e.2)).toFinset ↔ Odd (edgeCount p.seq u v)
  ends : ∀ e ∈ es, e.1 ∈ og.nodes ∧ e.2 ∈ og.nodes ∧ e.1 ≠ e.2

theorem toOpenGraph_graph {p : Pattern} (hp : p.OutputsOk) (hE : NoSelfLoop p.seq)
    (hplus : ∀ n st, Command.N n st ∈ p.seq → st = PlanarState.plus) {sp : StdPattern} (h : StdPattern.fromPattern p = .ok sp)
    {enum : Finset (Sym2 ℕ) → List (ℕ × ℕ)} (he : EnumOrd.Valid enum) :
    ∃ og, p.toOpenGraph enum = .ok og ∧ GraphOf p (enum sp.eSet) og := by
  have hw := fromPattern_wf hp hE h
  obtain ⟨-, hrun, e1, e2⟩ := fromPattern_ok h
  obtain ⟨f1, f2⟩ := StdBody.run_fields hrun
  have hi := fromPattern_inv hE h
  have hpl : ∀ n ∈ sp.nList, n.2 = PlanarState.plus := by
    intro n hn
    rw [f1] at hn
    simp only [StdBody.init, List.nil_append, List.mem_filterMap] at hn
    obtain ⟨c, hc, hcn⟩ := hn
    cases c <;> simp only [Option.some.injEq, reduceCtorEq] at hcn
    subst hcn
    exact hplus _ _ hc
  obtain ⟨og, h1, h2, h3, h4, -⟩ := hw.toOpenGraph hpl (he sp.eSet)
  refine ⟨og, by simp only [Pattern.toOpenGraph, h, bind, Except.bind, h1], ?_, h4, (he sp.eSet).1, ?_, ?_⟩
  · intro n
    rw [h3, List.mem_toFinset]
    unfold StdPattern.nodeList introduced
    rw [e1, hi.nl]
  · intro u v
    rw [(he sp.eSet).2, f2]
    simp [StdBody.init]
  · intro e hee
    have hmem : s(e.1, e.2) ∈ sp.eSet := (Enumerates.mem (he sp.eSet) e.1 e.2).1 (Or.inl hee)
    rw [h3]
    refine ⟨List.mem_toFinset.2 (hw.edge _ hmem _ (Sym2.mem_mk_left _ _)), List.mem_toFinset.2 (hw.edge _ hmem _ (Sym2.mem_mk_right _ _)), fun hc => ?_⟩
    exact hw.loop _ hmem (by rw [hc]; exact Sym2.mk_isDiag_iff.2 rfl)

/-- **C63**: `isolated_nodes` is the set of the nodes that have no neighbour. -/
theorem C63_isolated_nodes (p : Pattern) (hp : p.OutputsOk) (hE : NoSelfLoop p.seq)
    (hplus : ∀ n st, Command.N n st ∈ p.seq → st = PlanarState.plus) (sp : StdPattern) (h : StdPattern.fromPattern p = .ok sp)
    (enum : Finset (Sym2 ℕ) → List (ℕ × ℕ)) (he : EnumOrd.Valid enum) :
    ∃ iso, p.isolatedNodes enum = .ok iso ∧ ∀ n, n ∈ iso ↔ n ∈ introduced p.inputs p.seq ∧ ∀ w, ¬ Odd (edgeCount p.seq n w) := by
  obtain ⟨og, h1, hg⟩ := toOpenGraph_graph hp hE hplus h he
  refine ⟨_, by simp only [Pattern.isolatedNodes, h1, bind, Except.bind, pure, Except.pure]; rfl, fun n => ?_⟩
  rw [Finset.mem_filter, hg.nodes]
  refine and_congr_right fun _ => ?_
  unfold OpenGraph.degree
  rw [List.countP_eq_zero, hg.edges]
  constructor
  · intro hc w hodd
    obtain ⟨e, hee, heq⟩ := List.mem_map.1 (List.mem_toFinset.1 ((hg.adj n w).2 hodd))
    have := hc e hee
    simp only [Bool.or_eq_true, decide_eq_true_eq, not_or] at this
    rcases Sym2.eq_iff.1 heq with ⟨h1, h2⟩ | ⟨h1, h2⟩
    · exact this.1 h1
    · exact this.2 h2
  · intro hc e hee
    simp only [Bool.or_eq_true, decide_eq_true_eq]
    have hm : s(e.1, e.2) ∈ ((enum sp.eSet).map fun e => s(e.1, e.2)).toFinset := List.mem_toFinset.2 (List.mem_map.2 ⟨e, hee, rfl⟩)
    rintro (rfl | rfl)
    · exact hc e.2 ((hg.adj _ _).1 hm)
    · exact hc e.1 ((hg.adj _ _).1 (by rw [Sym2.eq_swap]; exact hm))

/-- The beginning of a run, for the parallel preparation: the commands that prepare the graph state are done. -/
theorem start_par (env : TnEnv) (henv : env.Ok) {p : Pattern} (hp : p.OutputsOk) (hR : Runnable p.inputs p.seq)
    {a b : List Command} (hab : p.seq = a ++ b)
    (ha : ∀ c ∈ a, (∃ n, c = .N n PlanarState.plus) ∨ ∃ u v, c = .E u v) (hb : ∀ c ∈ b, (∀ n s, c ≠ .N n s) ∧ ∀ u v, c ≠ .E u v)
    {og : OpenGraph} {edges : List (ℕ × ℕ)} (hg : GraphOf p edges og) (iso : Finset ℕ) :
    TnInv env p.inputs (InputData.toState p.inputs (.state PlanarState.plus)) iso p.outputs true a
      ⟨(TensorNet.empty (some p.outputs)).prepareGraphState (env.nodeOrd og.nodes) og.edges, true, iso, []⟩ := by
  obtain ⟨hnd, hmem⟩ := henv.nodeOrd og.nodes
  have hma : measuredIn a = [] := by
    unfold measuredIn
    rw [List.filterMap_eq_nil_iff]
    intro c hc
    rcases ha c hc with ⟨n, rfl⟩ | ⟨u, v, rfl⟩ <;> rfl
  have hpb : b.filterMap Command.prepared? = [] := by
    rw [List.filterMap_eq_nil_iff]
    intro c hc
    cases c with
    | N n s => exact absurd rfl ((hb _ hc).1 n s)
    | _ => rfl
  have hib : introduced p.inputs p.seq = introduced p.inputs a := by
    rw [hab, introduced_append, hpb, List.append_nil]
  have hec : ∀ u v, edgeCount p.seq u v = edgeCount a u v := by
    intro u v
    rw [hab, edgeCount_append, edgeCount_zero (l := b) (fun x y hm => (hb _ hm).2 x y rfl), add_zero]
  have hlive : (liveList p.inputs a).toFinset = (env.nodeOrd og.nodes).toFinset := by
    ext n
    rw [mem_live_finset, List.mem_toFinset, hmem, hg.nodes, hib]
    unfold Live
    rw [hma]; simp
  have hlen : (env.nodeOrd og.nodes).length = p.inputs.length + (a.filterMap Command.prepared?).length := by
    have h1 : (introduced p.inputs a).Nodup := by
      have := hR.introduced_nodup hp.inputs_nodup
      rwa [hib] at this
    have : (env.nodeOrd og.nodes).Perm (introduced p.inputs a) :=
      (List.perm_ext_iff_of_nodup hnd h1).2 fun n => by rw [hmem, hg.nodes, hib]
    rw [this.length_eq]
    simp [introduced]
  obtain ⟨J, hrep, hsep, hout⟩ := prepareGraphState_rep (some p.outputs) (edges := og.edges) hnd (by
    intro e he
    rw [hg.edges] at he
    obtain ⟨h1, h2, h3⟩ := hg.ends e he
    exact ⟨(hmem _).2 h1, (hmem _).2 h2, h3⟩)
  refine ⟨by simp [hma], rfl, rfl, hout, ?_, by rw [hlive]; exact hsep, fun r _ => ⟨J, 1, by simp, ?_⟩⟩
  · intro pre1 n m s t post1 e
    have : Command.M n m s t ∈ a := by rw [e]; simp
    rcases ha _ this with ⟨n, h⟩ | ⟨u, v, h⟩ <;> cases h
  · rw [hlive, hma]
    refine hrep.congr_state ?_
    obtain ⟨E1, h1, h2⟩ := semCmds_prepare r a ∅ (InputData.toState p.inputs (.state PlanarState.plus)) ha
    rw [czSet_empty] at h1
    have hE1 : E1 = (edges.map fun e => s(e.1, e.2)).toFinset := by
      ext e
      induction e with
      | _ u v => rw [h2, hg.adj, hec]; simp
    rw [h1, hE1, ← semCmds_edges r _ _ hg.nodup]
    funext b
    have hcz : ∀ (l : List (ℕ × ℕ)) (ψ : QState), semCmds r (l.map fun e => Command.E e.1 e.2) ψ b =
        (l.map fun e => if b e.1 && b e.2 then (-1 : ℂ) else 1).prod * ψ b := by
      intro l
      induction l with
      | nil => intro ψ; simp
      | cons e l ih =>
        intro ψ
        rw [List.map_cons, semCmds_cons, ih, List.map_cons, List.prod_cons]
        simp only [Command.sem, cz_eq_sign, czSign_mk]
        ring
    simp only [Pi.smul_apply, smul_eq_mul, hcz]
    simp only [InputData.toState]
    rw [prodState_plus, hlen, hg.edges, pow_add]
    simp only [List.length_nil, pow_zero]
    ring

/-- The modes that accept the pattern: `"parallel"` and `"opt"` accept only patterns in standard form. -/
def GraphPrepMode.Accepts (p : Pattern) : GraphPrepMode → Prop
  | .parallel | .opt => p.isStandard false = true
  | .sequential | .auto => True
  | .other => False

/-- A run: the construction of the backend, then the loop, from a state that satisfies the invariant. -/
theorem tn_run (env : TnEnv) (henv : env.Ok) (p : Pattern) (hp : p.OutputsOk) (hE : NoSelfLoop p.seq) (hS : ∀ n d, Command.S n d ∉ p.seq)
    (hplus : ∀ n st, Command.N n st ∈ p.seq → st = PlanarState.plus) (sp : StdPattern) (h : StdPattern.fromPattern p = .ok sp)
    (hnb : ∀ n ∈ measuredIn p.seq, ∃ w, Odd (edgeCount p.seq n w))
    (hsel : ∀ res n, ∃ o, env.sel res n (1 / 2) = .ok o) (hsel' : ∀ res n, ∃ o, env.selAgain res n (1 / 2) = .ok o)
    (mode : GraphPrepMode) (hmode : mode.Accepts p) :
    ∃ st iso par, tnSimulate env p mode (some (.state PlanarState.plus)) = .ok st ∧
      TnInv env p.inputs (InputData.toState p.inputs (.state PlanarState.plus)) iso p.outputs par p.seq st := by
  obtain ⟨hR, -⟩ := fromPattern_ok h
  have hrun := (checkRunnability_iff p).2 hR
  obtain ⟨og, ho1, hg⟩ := toOpenGraph_graph hp hE hplus h henv.enum
  obtain ⟨iso, hi1, hi2⟩ := C63_isolated_nodes p hp hE hplus sp h env.enum henv.enum
  have hiso : ∀ n ∈ measuredIn p.seq, n ∉ iso := by
    intro n hn hc
    obtain ⟨w, hw⟩ := hnb n hn
    exact ((hi2 n).1 hc).2 w hw
  have hmax : ∃ d, p.maxDegree env.enum = .ok d := ⟨_, by simp only [Pattern.maxDegree, ho1, bind, Except.bind, pure, Except.pure]; rfl⟩
  obtain ⟨d, hd⟩ := hmax
  -- the choice of the mode
  have hchoice : ∃ par : Bool, tnInit env p mode = (do
      let net ← if par then
          if !p.isStandard false then throw .valueError
          else do
            let og ← p.toOpenGraph env.enum
            pure ((TensorNet.empty (some p.outputs)).prepareGraphState (env.nodeOrd og.nodes) og.edges)
        else pure (TensorNet.empty (some p.outputs))
      let isolated ← p.isolatedNodes env.enum
      return ⟨net, par, isolated, []⟩) ∧ (par = true → p.isStandard false = true) := by
    cases mode with
    | parallel => exact ⟨true, rfl, fun _ => hmode⟩
    | opt => exact ⟨true, rfl, fun _ => hmode⟩
    | sequential => exact ⟨false, rfl, by simp⟩
    | auto =>
      refine ⟨!(decide (d > 5) || !p.isStandard false), by unfold tnInit; simp only [hd]; rfl, fun hc => ?_⟩
      cases hs : p.isStandard false with
      | true => rfl
      | false => rw [hs] at hc; simp at hc
    | other => exact absurd hmode id
  obtain ⟨par, hpar, hst⟩ := hchoice
  cases par with
  | false =>
    obtain ⟨net, hn1, hn2⟩ := start_seq env hp.inputs_nodup iso p.outputs
    obtain ⟨st, hl1, hl2⟩ := loop_tn henv.cz hR hS hplus hE hiso hsel hsel' p.seq [] _ rfl (by simp) hn2
    refine ⟨st, iso, false, ?_, hl2⟩
    unfold tnSimulate
    rw [hpar]
    simp only [bind, Except.bind, pure, Except.pure, hi1, Bool.false_eq_true, if_false, ne_eq, not_true_eq_false, TnState.addNodes, hn1, hrun]
    exact hl1
  | true =>
    have hstd := hst rfl
    obtain ⟨a, b, hab, ha, hb⟩ := standard_split (l := p.seq) hstd
    have ha' : ∀ c ∈ a, (∃ n, c = .N n PlanarState.plus) ∨ ∃ u v, c = .E u v := by
      intro c hc
      have hmem : c ∈ p.seq := by rw [hab]; exact List.mem_append_left _ hc
      cases c with
      | N n s => exact Or.inl ⟨n, by rw [hplus n s hmem]⟩
      | E u v => exact Or.inr ⟨u, v, rfl⟩
      | _ => rcases ha _ hc with h | h <;> cases h
    have hb' : ∀ c ∈ b, (∀ n s, c ≠ .N n s) ∧ ∀ u v, c ≠ .E u v := by
      intro c hc
      obtain ⟨h1, h2⟩ := hb c hc
      exact ⟨by rintro n s rfl; exact h1 rfl, by rintro u v rfl; exact h2 rfl⟩
    have hn2 := start_par env henv hp hR hab ha' hb' hg iso
    obtain ⟨st, hl1, hl2⟩ := loop_tn henv.cz hR hS hplus hE hiso hsel hsel' b a _ hab (fun _ => hb') hn2
    refine ⟨st, iso, true, ?_, hl2⟩
    unfold tnSimulate
    rw [hpar]
    simp only [bind, Except.bind, pure, Except.pure, hi1, if_true, hstd, Bool.not_true, Bool.false_eq_true, if_false, ho1, ne_eq, not_true_eq_false,
      TnState.addNodes, hrun]
    rw [hab, tn_loop_append, loop_parallel rfl a ha']
    exact hl1

/-- The outcomes were chosen by the branch selector, which was given, for each measurement, the outcomes of the measurements that precede
it and the probability 1/2. -/
def TnChosen (env : TnEnv) (seq : List Command) (results : PyDict ℕ Bool) : Prop :=
  ∀ pre n m s t post, seq = pre ++ Command.M n m s t :: post → ∃ (res : PyDict ℕ Bool) (o : Bool),
    (∀ k, (∃ o, res.get? k = some o) ↔ k ∈ measuredIn pre) ∧ (∀ k o', res.get? k = some o' → results.get? k = some o') ∧
    env.sel res n (1 / 2) = .ok o ∧ results.get? n = some o

/-- **C63.** Simulation with the tensor-network backend, for every runnable pattern that prepares `|+⟩` states, has no `S` command, entangles no
node with itself and in which every measured node has a neighbour; for every mode of preparation of the graph state that accepts the pattern, every
factorisation of CZ, every order of the nodes and of the edges of the graph, and every selector that answers: the simulation succeeds; every measured
node has an outcome, the one that the selector chose; and the amplitudes of the network, `to_statevector()` and `norm()` are those of the textbook
semantics of the branch of the outcomes, up to a global phase (and the factor `√2` per measurement, before the normalisation). The result of
`to_statevector()` is NaN exactly if the branch has probability zero. -/
theorem C63_run_partial (env : TnEnv) (henv : env.Ok) (p : Pattern) (hp : p.OutputsOk) (hE : NoSelfLoop p.seq) (hS : ∀ n d, Command.S n d ∉ p.seq)
    (hplus : ∀ n st, Command.N n st ∈ p.seq → st = PlanarState.plus) (sp : StdPattern) (h : StdPattern.fromPattern p = .ok sp)
    (hnb : ∀ n ∈ measuredIn p.seq, ∃ w, Odd (edgeCount p.seq n w))
    (hsel : ∀ res n, ∃ o, env.sel res n (1 / 2) = .ok o) (hsel' : ∀ res n, ∃ o, env.selAgain res n (1 / 2) = .ok o)
    (mode : GraphPrepMode) (hmode : mode.Accepts p) :
    ∃ st, tnSimulate env p mode (some (.state PlanarState.plus)) = .ok st ∧
      (∀ n, (∃ o, st.results.get? n = some o) ↔ n ∈ measuredIn p.seq) ∧ TnChosen env p.seq st.results ∧
      ∀ r, Agrees st.results r → ∃ c : ℂ, ‖c‖ = 1 ∧
        ∀ ψ, ψ = semCmds r p.seq (InputData.toState p.inputs (.state PlanarState.plus)) →
          (∀ b, st.net.rawCoefficient (enc p.outputs b) = .ok (c * (Real.sqrt 2 : ℂ) ^ (measuredIn p.seq).length * ψ b)) ∧
          st.net.norm = Real.sqrt 2 ^ (measuredIn p.seq).length * Real.sqrt (stateNormSq p.outputs ψ) ∧
          ∀ psi, absState p.outputs psi = ψ →
            st.net.toStatevector = .ok (if stateNormSq p.outputs ψ = 0 then none else
              some ((List.range (2 ^ p.outputs.length)).map fun i => c * psi i / (Real.sqrt (stateNormSq p.outputs ψ) : ℂ))) := by
  obtain ⟨st, iso, par, h1, inv⟩ := tn_run env henv p hp hE hS hplus sp h hnb hsel hsel' mode hmode
  refine ⟨st, h1, inv.results, inv.chosen, fun r hr => ?_⟩
  obtain ⟨J, c, hc, hR⟩ := inv.rep r hr
  refine ⟨c, hc, ?_⟩
  rintro ψ rfl
  set ψ := semCmds r p.seq (InputData.toState p.inputs (.state PlanarState.plus)) with hψ
  set k := (measuredIn p.seq).length with hk
  have hL : ∀ n, n ∈ p.outputs ↔ n ∈ (liveList p.inputs p.seq).toFinset := by
    intro n; rw [mem_live_finset, hp.outputs]
  have hidx : st.net.indicesOr none = .ok p.outputs := by
    simp only [TensorNet.indicesOr, TensorNet.requireOutputs, inv.outs]
  have hs2 : (Real.sqrt 2 : ℂ) ≠ 0 := by simp
  have hns : Complex.normSq (c * (Real.sqrt 2 : ℂ) ^ k) = (Real.sqrt 2 ^ k) ^ 2 := by
    rw [Complex.normSq_eq_norm_sq, norm_mul, hc, one_mul, norm_pow, Complex.norm_real, Real.norm_of_nonneg (Real.sqrt_nonneg 2)]
  have hpos : 0 < Real.sqrt 2 ^ k := by positivity
  refine ⟨fun b => ?_, ?_, fun psi hpsi => ?_⟩
  · exact hR.coefficient hp.outputs_nodup hL hidx b
  · rw [hR.norm_eq hL, stateNormSq_smul, hns, Real.sqrt_mul (by positivity), Real.sqrt_sq hpos.le]
  · have habs : absState p.outputs (fun i => c * (Real.sqrt 2 : ℂ) ^ k * psi i) = (c * (Real.sqrt 2 : ℂ) ^ k) • ψ := by
      funext b
      have := congrFun hpsi b
      unfold absState at this ⊢
      rw [Pi.smul_apply, smul_eq_mul, ← this]
    rw [hR.statevector hp.outputs_nodup hL hidx habs]
    have hnorm : normSq p.outputs.length (fun i => c * (Real.sqrt 2 : ℂ) ^ k * psi i) = (Real.sqrt 2 ^ k) ^ 2 * stateNormSq p.outputs ψ := by
      rw [← stateNormSq_abs _ hp.outputs_nodup, habs, stateNormSq_smul, hns]
    rw [hnorm]
    have hz : (Real.sqrt 2 ^ k) ^ 2 * stateNormSq p.outputs ψ = 0 ↔ stateNormSq p.outputs ψ = 0 := by
      rw [mul_eq_zero]
      constructor
      · rintro (h | h)
        · exact absurd h (by positivity)
        · exact h
      · exact Or.inr
    by_cases h0 : stateNormSq p.outputs ψ = 0
    · rw [if_pos h0, if_pos (hz.2 h0)]
    · rw [if_neg h0, if_neg (fun hc => h0 (hz.1 hc)), Real.sqrt_mul (by positivity), Real.sqrt_sq hpos.le]
      congr 2
      refine List.map_congr_left fun i _ => ?_
      rw [Complex.ofReal_mul, Complex.ofReal_pow]
      have : (Real.sqrt 2 : ℂ) ^ k ≠ 0 := pow_ne_zero _ hs2
      rw [show c * (Real.sqrt 2 : ℂ) ^ k * psi i = (Real.sqrt 2 : ℂ) ^ k * (c * psi i) by ring, mul_div_mul_left _ _ this]

end Graphix
