import Verif.Model.PatternViews
import Verif.Props.Parallelize
import Verif.Props.Mc
import Verif.Props.PatternMin
import Verif.Props.PatternMap

/-!
# C70: the views of a pattern
-/

namespace Graphix

/-! ### Specification -/

/-- The other end of an `E` command on `node`, unless it is already prepared. -/
def otherEnd (node : ℕ) (prepared : Finset ℕ) : Command → Option ℕ
  | .E a b =>
    if a = node then (if b ∈ prepared then none else some b)
    else if b = node then (if a ∈ prepared then none else some a) else none
  | _ => none

/-- The sequence of commands ends with an `E` command. -/
def EndsWithE (l : List Command) : Prop := ∃ a b, l.getLast? = some (.E a b)

/-! ### Clifford commands -/

theorem cliffordCommands_snoc (p : Pattern) (c : Command) :
    ({ p with seq := p.seq ++ [c] } : Pattern).cliffordCommands = match c with
      | .C n g => p.cliffordCommands.set n g
      | _ => p.cliffordCommands := by
  unfold Pattern.cliffordCommands
  rw [List.foldl_append]
  cases c <;> rfl

/-- **C70** `clifford_commands()` maps a node to the last Clifford command on it. -/
theorem C70_clifford_commands (p : Pattern) (n : ℕ) (g : Clifford) :
    p.cliffordCommands.get? n = some g ↔ ∃ a b, p.seq = a ++ .C n g :: b ∧ ∀ g', Command.C n g' ∉ b := by
  obtain ⟨i, k, seq, o⟩ := p
  induction seq using List.reverseRecOn with
  | nil => simp [Pattern.cliffordCommands]
  | append_singleton l c ih =>
    have e := cliffordCommands_snoc ⟨i, k, l, o⟩ c
    simp only at e ih
    rw [e]
    have other : (∀ g', c ≠ .C n g') →
        ((∃ a b, l ++ [c] = a ++ .C n g :: b ∧ ∀ g', Command.C n g' ∉ b) ↔ ∃ a b, l = a ++ .C n g :: b ∧ ∀ g', Command.C n g' ∉ b) := by
      intro hc
      constructor
      · rintro ⟨a, b, h1, h2⟩
        rcases List.eq_nil_or_concat b with rfl | ⟨b', x, rfl⟩
        · have := List.append_inj_right' h1 rfl
          simp only [List.cons.injEq, and_true] at this
          exact absurd this (hc g)
        · rw [List.concat_eq_append, ← List.cons_append, ← List.append_assoc] at h1
          have h3 := List.append_inj' h1 rfl
          exact ⟨a, b', h3.1, fun g' hg => h2 g' (by rw [List.concat_eq_append]; simp [hg])⟩
      · rintro ⟨a, b, rfl, h2⟩
        refine ⟨a, b ++ [c], by simp, fun g' hg => ?_⟩
        rcases List.mem_append.1 hg with h | h
        · exact h2 g' h
        · rw [List.mem_singleton] at h; exact hc g' h.symm
    cases c with
    | C n' g' =>
      dsimp only
      by_cases hn : n' = n
      · subst hn
        rw [PyDict.get?_set_self]
        constructor
        · intro h; cases h; exact ⟨l, [], rfl, by simp⟩
        · rintro ⟨a, b, h1, h2⟩
          rcases List.eq_nil_or_concat b with rfl | ⟨b', x, rfl⟩
          · have := List.append_inj_right' h1 rfl
            simp only [List.cons.injEq, and_true, Command.C.injEq, true_and] at this
            rw [this]
          · rw [List.concat_eq_append, ← List.cons_append, ← List.append_assoc] at h1
            have h3 := List.append_inj' h1 rfl
            simp only [List.cons.injEq, and_true] at h3
            exact absurd (by rw [List.concat_eq_append, ← h3.2]; simp) (h2 g')
      · rw [PyDict.get?_set_ne _ _ hn, ih, other]
        intro g'' h; cases h; exact hn rfl
    | _ =>
      dsimp only
      rw [ih, other]
      intro g' h; cases h

/-- The node of a Clifford command. -/
def cNode? : Command → Option ℕ
  | .C n _ => some n
  | _ => none

theorem cliffordCommands_keys (p : Pattern) : p.cliffordCommands.keys.Nodup := by
  obtain ⟨i, k, seq, o⟩ := p
  induction seq using List.reverseRecOn with
  | nil => simp [Pattern.cliffordCommands, PyDict.keys]
  | append_singleton l c ih =>
    rw [cliffordCommands_snoc ⟨i, k, l, o⟩ c]
    cases c with
    | C n g => exact PyDict.keys_set_nodup ih n g
    | _ => exact ih

/-- **C70** On a standardized pattern, `clifford_commands()` gives all the Clifford commands. -/
theorem C70_clifford_commands_standardized (p : Pattern) (hE : NoSelfLoop p.seq) (q : Pattern) (h : StandardizeResult p q) (n : ℕ) (g : Clifford) :
    q.cliffordCommands.get? n = some g ↔ Command.C n g ∈ q.seq := by
  rw [C70_clifford_commands]
  obtain ⟨sp, h1, edges, h2, h3⟩ := h
  obtain ⟨s1, -⟩ := toPattern_ok h3
  have hi := fromPattern_inv hE h1
  constructor
  · rintro ⟨a, b, h, -⟩; rw [h]; simp
  · intro h
    obtain ⟨a, b, hab⟩ := List.append_of_mem h
    refine ⟨a, b, hab, fun g' hg' => ?_⟩
    have hnd : (sp.cDict.map Prod.fst).Nodup := hi.nc
    have key : q.seq.filterMap cNode? = sp.cDict.map Prod.fst := by
      rw [s1]
      unfold StdPattern.cmds
      have z1 : (sp.nList.map fun n => Command.N n.1 n.2).filterMap cNode? = [] := by
        rw [List.filterMap_eq_nil_iff]; intro c hc; obtain ⟨_, _, rfl⟩ := List.mem_map.1 hc; rfl
      have z2 : (edges.map fun e => Command.E e.1 e.2).filterMap cNode? = [] := by
        rw [List.filterMap_eq_nil_iff]; intro c hc; obtain ⟨_, _, rfl⟩ := List.mem_map.1 hc; rfl
      have z3 : (sp.mList.map MCmd.toCmd).filterMap cNode? = [] := by
        rw [List.filterMap_eq_nil_iff]; intro c hc; obtain ⟨_, _, rfl⟩ := List.mem_map.1 hc; rfl
      have z4 : (sp.zDict.map fun kv => Command.Z kv.1 kv.2).filterMap cNode? = [] := by
        rw [List.filterMap_eq_nil_iff]; intro c hc; obtain ⟨_, _, rfl⟩ := List.mem_map.1 hc; rfl
      have z5 : (sp.xDict.map fun kv => Command.X kv.1 kv.2).filterMap cNode? = [] := by
        rw [List.filterMap_eq_nil_iff]; intro c hc; obtain ⟨_, _, rfl⟩ := List.mem_map.1 hc; rfl
      simp only [List.filterMap_append, z1, z2, z3, z4, z5, List.nil_append]
      rw [List.filterMap_map, ← List.filterMap_eq_map]
      rfl
    rw [← key, hab] at hnd
    rw [List.filterMap_append, List.filterMap_cons_some (f := cNode?) (b := n) rfl, List.nodup_append] at hnd
    exact (List.nodup_cons.1 hnd.2.1).1 (List.mem_filterMap.2 ⟨_, hg', rfl⟩)

/-! ### Standard patterns -/

theorem dropWhile_all {α : Type} (p : α → Bool) (l : List α) : ∃ a b, l = a ++ b ∧ (∀ x ∈ a, p x = true) ∧ l.dropWhile p = b :=
  ⟨l.takeWhile p, l.dropWhile p, (List.takeWhile_append_dropWhile).symm, fun x hx => by simpa using List.all_eq_true.1 List.all_takeWhile x hx, rfl⟩

/-- The blocks of a standard pattern. -/
theorem standard_blocks {l : List Command} (h : Pattern.isStandardSeq l false = true) :
    ∃ ns es rest, l = ns ++ (es ++ rest) ∧ (∀ c ∈ ns, Pattern.kindOf c = .N) ∧ (∀ c ∈ es, Pattern.kindOf c = .E) ∧
      ∀ c ∈ rest, Pattern.kindOf c = .M ∨ Pattern.kindOf c = .X ∨ Pattern.kindOf c = .Z ∨ Pattern.kindOf c = .C := by
  unfold Pattern.isStandardSeq at h
  simp only [Bool.false_eq_true, if_false] at h
  obtain ⟨ns, l1, e1, k1, d1⟩ := dropWhile_all (fun c => decide (Pattern.kindOf c = .N)) l
  rw [d1] at h
  obtain ⟨es, l2, e2, k2, d2⟩ := dropWhile_all (fun c => decide (Pattern.kindOf c = .E)) l1
  rw [d2] at h
  obtain ⟨ms, l3, e3, k3, d3⟩ := dropWhile_all (fun c => decide (Pattern.kindOf c = .M)) l2
  rw [d3] at h
  obtain ⟨xs, l4, e4, k4, d4⟩ := dropWhile_all (fun c => decide (Pattern.kindOf c = .X) || decide (Pattern.kindOf c = .Z) || decide (Pattern.kindOf c = .C)) l3
  rw [d4] at h
  have : l4 = [] := List.isEmpty_iff.1 h
  subst this
  refine ⟨ns, es, l2, by rw [e1, e2], fun c hc => by simpa using k1 c hc, fun c hc => by simpa using k2 c hc, fun c hc => ?_⟩
  rw [e3, e4, List.append_nil] at hc
  rcases List.mem_append.1 hc with h' | h'
  · exact Or.inl (by simpa using k3 c h')
  · have := k4 c h'
    simp only [Bool.or_eq_true, decide_eq_true_eq] at this
    tauto

/-! ### Connected nodes -/

theorem connectedLoop_edges (node : ℕ) (prepared : Finset ℕ) (es : List Command) (hes : ∀ c ∈ es, Pattern.kindOf c = .E) (rest : List Command)
    (hr : ∀ c ∈ rest, Pattern.kindOf c ≠ .E) :
    Pattern.connectedLoop node prepared (es ++ rest) =
      if rest = [] then .error .indexError else .ok (es.filterMap (otherEnd node prepared)) := by
  induction es with
  | nil =>
    cases rest with
    | nil => rfl
    | cons c rest =>
      have := hr c (by simp)
      cases c with
      | E a b => exact absurd rfl this
      | _ => simp [Pattern.connectedLoop]
  | cons c es ih =>
    have hc := hes c (by simp)
    cases c with
    | E a b =>
      have ih := ih fun c hc => hes c (by simp [hc])
      simp only [List.cons_append, Pattern.connectedLoop, ih]
      by_cases hrest : rest = []
      · simp [hrest, bind, Except.bind]
      · simp only [hrest, if_false, bind, Except.bind, pure, Except.pure]
        by_cases h1 : a = node
        · by_cases h2 : b ∈ prepared
          · simp [otherEnd, h1, h2]
          · simp [otherEnd, h1, h2]
        · by_cases h2 : b = node
          · by_cases h3 : a ∈ prepared
            · simp [otherEnd, h1, h2, h3]
            · simp [otherEnd, h1, h2, h3]
          · simp [otherEnd, h1, h2]
    | _ => simp [Pattern.kindOf] at hc

theorem findOp_first {k : Pattern.Kind} {l l' : List Command} {c : Command} (h : ∀ x ∈ l, Pattern.kindOf x ≠ k) (hc : Pattern.kindOf c = k) :
    Pattern.findOp k (l ++ c :: l') false 0 = some l.length := by
  unfold Pattern.findOp
  simp only [Bool.false_eq_true, if_false]
  have hlen : (l ++ c :: l').length = l.length + (l'.length + 1) := by simp
  rw [hlen, List.range_add, List.filter_append]
  have h1 : (List.range l.length).filter (fun i => ((l ++ c :: l')[i]?).any fun c => decide (Pattern.kindOf c = k)) = [] := by
    rw [List.filter_eq_nil_iff]
    intro i hi
    rw [List.mem_range] at hi
    rw [List.getElem?_append_left hi, List.getElem?_eq_getElem hi]
    simp only [Option.any_some, decide_eq_true_eq]
    exact h _ (List.getElem_mem hi)
  rw [h1, List.nil_append, List.range_succ_eq_map, List.map_cons, List.filter_cons]
  simp [hc]

theorem findOp_none {k : Pattern.Kind} {l : List Command} (h : ∀ x ∈ l, Pattern.kindOf x ≠ k) : Pattern.findOp k l false 0 = none := by
  unfold Pattern.findOp
  simp only [Bool.false_eq_true, if_false]
  have h1 : (List.range l.length).filter (fun i => (l[i]?).any fun c => decide (Pattern.kindOf c = k)) = [] := by
    rw [List.filter_eq_nil_iff]
    intro i hi
    rw [List.mem_range] at hi
    rw [List.getElem?_eq_getElem hi]
    simp only [Option.any_some, decide_eq_true_eq]
    exact h _ (List.getElem_mem hi)
  rw [h1]; rfl

theorem filterMap_otherEnd_nil (node : ℕ) (prepared : Finset ℕ) {l : List Command} (h : ∀ c ∈ l, Pattern.kindOf c ≠ .E) :
    l.filterMap (otherEnd node prepared) = [] := by
  rw [List.filterMap_eq_nil_iff]
  intro c hc
  have := h c hc
  cases c with
  | E a b => exact absurd rfl this
  | _ => rfl

/-- The loop over a standard sequence. -/
theorem connected_standard (q : Pattern) (hq : q.isStandard false = true) (node : ℕ) (prepared : Finset ℕ) (eo : GraphOrd) :
    q.connectedNodes node prepared eo =
      open Classical in if EndsWithE q.seq then .error .indexError else .ok (q, q.seq.filterMap (otherEnd node prepared)) := by
  classical
  obtain ⟨ns, es, rest, e, k1, k2, k3⟩ := standard_blocks hq
  have k3' : ∀ c ∈ rest, Pattern.kindOf c ≠ .E := by
    intro c hc; rcases k3 c hc with h | h | h | h <;> rw [h] <;> decide
  have k1' : ∀ c ∈ ns, Pattern.kindOf c ≠ .E := by
    intro c hc; rw [k1 c hc]; decide
  unfold Pattern.connectedNodes
  rw [if_pos hq]
  simp only [bind, Except.bind, pure, Except.pure]
  rw [e]
  cases es with
  | nil =>
    have hall : ∀ c ∈ ns ++ ([] ++ rest), Pattern.kindOf c ≠ .E := by
      intro c hc
      rw [List.nil_append] at hc
      rcases List.mem_append.1 hc with h | h
      · exact k1' c h
      · exact k3' c h
    rw [findOp_none hall, if_neg, filterMap_otherEnd_nil _ _ hall]
    rintro ⟨a, b, hab⟩
    exact hall _ (List.mem_of_getLast? hab) rfl
  | cons c es =>
    have hlast : EndsWithE (ns ++ (c :: es ++ rest)) ↔ rest = [] := by
      unfold EndsWithE
      constructor
      · rintro ⟨a, b, hab⟩
        by_contra hne
        rw [← List.append_assoc, List.getLast?_append_of_ne_nil _ hne] at hab
        exact k3' _ (List.mem_of_getLast? hab) rfl
      · rintro rfl
        rw [List.append_nil, List.getLast?_append_of_ne_nil _ (by simp)]
        obtain ⟨x, hx⟩ : ∃ x, (c :: es).getLast? = some x := ⟨_, List.getLast?_eq_some_getLast (by simp)⟩
        have := k2 x (List.mem_of_getLast? hx)
        cases x with
        | E a b => exact ⟨a, b, hx⟩
        | _ => simp [Pattern.kindOf] at this
    rw [List.cons_append, findOp_first k1' (k2 c (by simp))]
    dsimp only
    rw [List.drop_left, ← List.cons_append, connectedLoop_edges _ _ _ k2 _ k3']
    by_cases hr : rest = []
    · rw [if_pos hr, if_pos (hlast.2 hr)]
    · rw [if_neg hr, if_neg (fun h => hr (hlast.1 h))]
      simp only [List.filterMap_append, filterMap_otherEnd_nil _ _ k1', filterMap_otherEnd_nil _ _ k3', List.nil_append, List.append_nil]

theorem mem_otherEnd {l : List Command} (hl : NoSelfLoop l) (node : ℕ) (prepared : Finset ℕ) (v : ℕ) :
    v ∈ l.filterMap (otherEnd node prepared) ↔ (Command.E node v ∈ l ∨ Command.E v node ∈ l) ∧ v ∉ prepared := by
  rw [List.mem_filterMap]
  constructor
  · rintro ⟨c, hc, h⟩
    cases c with
    | E a b =>
      simp only [otherEnd] at h
      split_ifs at h with h1 h2 h2 h3
      · simp only [Option.some.injEq] at h; subst h; subst h1
        exact ⟨Or.inl hc, h2⟩
      · simp only [Option.some.injEq] at h; subst h; subst h2
        exact ⟨Or.inr hc, h3⟩
    | _ => simp [otherEnd] at h
  · rintro ⟨h | h, hv⟩
    · exact ⟨_, h, by simp [otherEnd, hv]⟩
    · have := hl _ _ h
      exact ⟨_, h, by simp [otherEnd, this, hv]⟩

theorem otherEnd_edge {node v : ℕ} {prepared : Finset ℕ} {c : Command} (h : otherEnd node prepared c = some v) : c.edge? = some s(node, v) := by
  cases c with
  | E a b =>
    simp only [otherEnd] at h
    split_ifs at h with h1 h2 h2 h3
    · simp only [Option.some.injEq] at h; subst h; subst h1; rfl
    · simp only [Option.some.injEq] at h; subst h; subst h2; simp [Command.edge?, Sym2.eq_swap]
  | _ => simp [otherEnd] at h

theorem nodup_otherEnd {l : List Command} (h : (l.filterMap Command.edge?).Nodup) (node : ℕ) (prepared : Finset ℕ) :
    (l.filterMap (otherEnd node prepared)).Nodup := by
  induction l with
  | nil => simp
  | cons c l ih =>
    cases hc : otherEnd node prepared c with
    | none =>
      rw [List.filterMap_cons_none hc]
      refine ih ?_
      cases he : c.edge? with
      | none => rwa [List.filterMap_cons_none he] at h
      | some e => rw [List.filterMap_cons_some he] at h; exact (List.nodup_cons.1 h).2
    | some v =>
      rw [List.filterMap_cons_some hc]
      rw [List.filterMap_cons_some (otherEnd_edge hc)] at h
      refine List.nodup_cons.2 ⟨fun hv => ?_, ih (List.nodup_cons.1 h).2⟩
      obtain ⟨c', hc', hv'⟩ := List.mem_filterMap.1 hv
      exact (List.nodup_cons.1 h).1 (List.mem_filterMap.2 ⟨c', hc', otherEnd_edge hv'⟩)

/-- **C70** `connected_nodes(node, prepared)` on a standard pattern: the neighbours of the node that are not in `prepared`, once for each `E` command
that links them; the pattern is unchanged. It raises `IndexError` when the sequence of commands ends with an `E` command. -/
theorem C70_connected_nodes_partial (p : Pattern) (hs : p.isStandard false = true) (hE : NoSelfLoop p.seq) (node : ℕ) (prepared : Finset ℕ)
    (eo : GraphOrd) :
    (EndsWithE p.seq → p.connectedNodes node prepared eo = .error .indexError) ∧
    (¬ EndsWithE p.seq → ∃ l, p.connectedNodes node prepared eo = .ok (p, l) ∧
      ∀ v, v ∈ l ↔ (Command.E node v ∈ p.seq ∨ Command.E v node ∈ p.seq) ∧ v ∉ prepared) := by
  classical
  rw [connected_standard p hs]
  refine ⟨fun h => by rw [if_pos h], fun h => ⟨_, by rw [if_neg h], fun v => mem_otherEnd hE node prepared v⟩⟩

/-- **C70** On a pattern that is not standard, `connected_nodes` standardizes it in place, then lists each node that the pattern entangles an odd
number of times with the given one, once, if it is not in `prepared`. It raises `IndexError` when the standard form ends with an `E` command. -/
theorem C70_connected_nodes_standardizes_partial (p : Pattern) (hp : p.OutputsOk) (hs : p.isStandard false = false) (hE : NoSelfLoop p.seq)
    (sp : StdPattern) (h : StdPattern.fromPattern p = .ok sp) (node : ℕ) (prepared : Finset ℕ) (eo : GraphOrd) (heo : eo.Valid) :
    ∃ q, StandardizeResult p q ∧
    (EndsWithE q.seq → p.connectedNodes node prepared eo = .error .indexError) ∧
    (¬ EndsWithE q.seq → ∃ l, p.connectedNodes node prepared eo = .ok ({ p with seq := q.seq }, l) ∧ l.Nodup ∧
      ∀ v, v ∈ l ↔ Odd (edgeCount p.seq node v) ∧ v ∉ prepared) := by
  classical
  obtain ⟨q, hq⟩ := C12_to_pattern_succeeds p hp hE sp h _ (heo sp.eSet).1
  have hres : StandardizeResult p q := ⟨sp, h, _, (heo sp.eSet).1, hq⟩
  obtain ⟨c1, c2, c3, c4, c5, c6, c7, c8⟩ := C12_standard_form p q hp.inputs_nodup hE hres
  obtain ⟨s1, -⟩ := toPattern_ok hq
  have hst : ({ p with seq := q.seq } : Pattern).isStandard false = true := by
    unfold Pattern.isStandard at c1 ⊢
    exact Pattern.isStandard_weaken c1
  have hin : p.standardizeInPlace eo = .ok { p with seq := q.seq } := by
    unfold Pattern.standardizeInPlace Pattern.standardizeWith
    simp only [h, hq, bind, Except.bind, pure, Except.pure]
  have e : p.connectedNodes node prepared eo = ({ p with seq := q.seq } : Pattern).connectedNodes node prepared eo := by
    unfold Pattern.connectedNodes
    rw [if_neg (by rw [hs]; simp), if_pos hst, hin]
  have hE2 := filterMap_edge_cmds sp (eo.edges sp.eSet)
  rw [← s1] at hE2
  have hmem : ∀ v, (Command.E node v ∈ q.seq ∨ Command.E v node ∈ q.seq) ↔ Odd (edgeCount p.seq node v) := by
    intro v
    rw [← mem_eSet_iff h]
    rw [← (heo sp.eSet).1.2, List.mem_toFinset, ← hE2, List.mem_filterMap]
    constructor
    · rintro (h | h)
      · exact ⟨_, h, rfl⟩
      · exact ⟨_, h, by simp [Command.edge?, Sym2.eq_swap]⟩
    · rintro ⟨c, hc, hce⟩
      cases c with
      | E a b =>
        simp only [Command.edge?, Option.some.injEq, Sym2.eq_iff] at hce
        rcases hce with ⟨rfl, rfl⟩ | ⟨rfl, rfl⟩
        · exact Or.inl hc
        · exact Or.inr hc
      | _ => simp [Command.edge?] at hce
  rw [e, connected_standard _ hst]
  refine ⟨q, hres, fun h => by rw [if_pos h], fun h => ⟨_, by rw [if_neg h], ?_, fun v => ?_⟩⟩
  · exact nodup_otherEnd c7 node prepared
  · rw [mem_otherEnd c8, hmem]

/-- **C70, failure.** `connected_nodes` raises `IndexError` on a standard pattern whose last command is an `E` command, although the node has a
neighbour. -/
theorem C70_connected_nodes_fails (eo : GraphOrd) :
    (⟨[], 2, [.N 0 .plus, .N 1 .plus, .E 0 1], [0, 1]⟩ : Pattern).connectedNodes 0 ∅ eo = .error .indexError :=
  (C70_connected_nodes_partial ⟨[], 2, [.N 0 .plus, .N 1 .plus, .E 0 1], [0, 1]⟩ rfl
    (by intro a b h; simp at h; omega) 0 ∅ eo).1 ⟨0, 1, rfl⟩

/-- **C70, failure.** Of two Clifford commands on a node, `clifford_commands` gives the second one only. -/
theorem C70_clifford_commands_fails :
    (⟨[0], 1, [.C 0 .H, .C 0 .S], [0]⟩ : Pattern).cliffordCommands.get? 0 = some .S := rfl

/-- A standard pattern on which `connected_nodes` succeeds. -/
noncomputable def connExample : Pattern := ⟨[0], 3, [.N 1 .plus, .N 2 .plus, .E 0 1, .E 1 2, .M 0 (.pauli ⟨.X, .plus⟩) ∅ ∅, .X 1 {0}], [1, 2]⟩

example (eo : GraphOrd) : ∃ l, connExample.connectedNodes 1 {0} eo = .ok (connExample, l) ∧
    ∀ v, v ∈ l ↔ (Command.E 1 v ∈ connExample.seq ∨ Command.E v 1 ∈ connExample.seq) ∧ v ∉ ({0} : Finset ℕ) :=
  (C70_connected_nodes_partial connExample rfl (by intro a b h; simp [connExample] at h; omega) 1 {0} eo).2
    (by rintro ⟨a, b, h⟩; simp [connExample] at h)

/-! ### Corrections -/

/-- **C70** `correction_commands()` raises `AssertionError` exactly when the pattern is not standard, and gives the `X` and `Z` commands in their
order otherwise. -/
theorem C70_correction_commands (p : Pattern) :
    (p.isStandard false = false → p.correctionCommands = .error .assertionError) ∧
    (p.isStandard false = true → ∃ l, p.correctionCommands = .ok l ∧ l.Sublist p.seq ∧
      (∀ c, c ∈ l ↔ c ∈ p.seq ∧ ((∃ n d, c = .X n d) ∨ ∃ n d, c = .Z n d)) ∧
      ∀ l' : List Command, l'.Sublist p.seq → (∀ c ∈ l', (∃ n d, c = .X n d) ∨ ∃ n d, c = .Z n d) → l'.Sublist l) := by
  have key : ∀ c, (Pattern.kindOf c = .X || Pattern.kindOf c = .Z) = true ↔ (∃ n d, c = .X n d) ∨ ∃ n d, c = .Z n d := by
    intro c; cases c <;> simp [Pattern.kindOf]
  refine ⟨fun h => by simp [Pattern.correctionCommands, h], fun h => ⟨_, by simp only [Pattern.correctionCommands, h]; rfl, List.filter_sublist, ?_, ?_⟩⟩
  · intro c; rw [List.mem_filter, key]
  · intro l' h1 h2
    have := h1.filter fun c => (Pattern.kindOf c = .X || Pattern.kindOf c = .Z : Bool)
    rwa [List.filter_eq_self.2 (fun c hc => (key c).2 (h2 c hc))] at this

/-- **C70** On a strictly standard pattern, the correction commands are what the pattern does between its last measurement and its Clifford
commands: the pattern is a prefix without corrections, then the correction commands, then Clifford commands. -/
theorem C70_correction_commands_strict (p : Pattern) (h : p.isStandard true = true) :
    ∃ body l cl, p.correctionCommands = .ok l ∧ p.seq = body ++ l ++ cl ∧
      (∀ c ∈ body, (∃ n v, c = .N n v) ∨ (∃ a b, c = .E a b) ∨ ∃ n m s t, c = .M n m s t) ∧ (∀ c ∈ cl, ∃ n g, c = .C n g) := by
  have hw : p.isStandard false = true := Pattern.isStandard_weaken h
  unfold Pattern.isStandard Pattern.isStandardSeq at h
  simp only [if_true] at h
  obtain ⟨ns, l1, e1, k1, d1⟩ := dropWhile_all (fun c => decide (Pattern.kindOf c = .N)) p.seq
  rw [d1] at h
  obtain ⟨es, l2, e2, k2, d2⟩ := dropWhile_all (fun c => decide (Pattern.kindOf c = .E)) l1
  rw [d2] at h
  obtain ⟨ms, l3, e3, k3, d3⟩ := dropWhile_all (fun c => decide (Pattern.kindOf c = .M)) l2
  rw [d3] at h
  obtain ⟨xs, l4, e4, k4, d4⟩ := dropWhile_all (fun c => decide (Pattern.kindOf c = .X) || decide (Pattern.kindOf c = .Z)) l3
  rw [d4] at h
  obtain ⟨cs, l5, e5, k5, d5⟩ := dropWhile_all (fun c => decide (Pattern.kindOf c = .C)) l4
  rw [d5] at h
  have : l5 = [] := List.isEmpty_iff.1 h
  subst this
  rw [List.append_nil] at e5
  subst e5
  have none' : ∀ {k : Pattern.Kind} {l : List Command}, k ≠ .X → k ≠ .Z → (∀ c ∈ l, decide (Pattern.kindOf c = k) = true) →
      l.filter (fun c => (decide (Pattern.kindOf c = .X) || decide (Pattern.kindOf c = .Z))) = [] := by
    intro k l hX hZ hl
    rw [List.filter_eq_nil_iff]
    intro c hc
    have := hl c hc
    simp only [decide_eq_true_eq] at this
    simp [this, hX, hZ]
  refine ⟨ns ++ es ++ ms, xs, l4, ?_, by rw [e1, e2, e3, e4]; simp, ?_, ?_⟩
  · unfold Pattern.correctionCommands
    rw [if_pos hw, e1, e2, e3, e4]
    simp only [List.filter_append]
    rw [none' (k := .N) (by decide) (by decide) k1, none' (k := .E) (by decide) (by decide) k2, none' (k := .M) (by decide) (by decide) k3,
      none' (k := .C) (by decide) (by decide) k5, List.filter_eq_self.2 k4]
    simp
  · intro c hc
    rcases List.mem_append.1 hc with hc | hc
    · rcases List.mem_append.1 hc with hc | hc
      · have := k1 c hc; cases c <;> simp [Pattern.kindOf] at this ⊢
      · have := k2 c hc; cases c <;> simp [Pattern.kindOf] at this ⊢
    · have := k3 c hc; cases c <;> simp [Pattern.kindOf] at this ⊢
  · intro c hc
    have := k5 c hc; cases c <;> simp [Pattern.kindOf] at this ⊢

example : connExample.correctionCommands = .ok [.X 1 {0}] := rfl
example : connExample.isStandard true = true := rfl
example : (⟨[0], 1, [.X 0 ∅, .M 0 (.pauli ⟨.X, .plus⟩) ∅ ∅], []⟩ : Pattern).correctionCommands = .error .assertionError := rfl

/-! ### Order of the input nodes -/

theorem loopErr (l : List ℕ) (s : Finset ℕ) (e : PyErr) (h : assertPermutationLoop l s = .error e) : e = .patternError := by
  induction l generalizing s with
  | nil => cases h
  | cons a l ih =>
    unfold assertPermutationLoop at h
    split_ifs at h with h1
    · exact ih _ h
    · cases h; rfl

/-- **C70** `reorder_input_nodes(l)` raises `PatternError` unless `l` is a permutation of the input nodes; otherwise it changes the list of
input nodes only, and the new pattern does the same thing to every state. -/
theorem C70_reorder_input_nodes (p : Pattern) (hp : p.inputs.Nodup) (l : List ℕ) :
    (¬ l.Perm p.inputs → p.reorderInputNodes l = .error .patternError) ∧
    (l.Perm p.inputs → ∃ q, p.reorderInputNodes l = .ok q ∧ q.inputs = l ∧ q.outputs = p.outputs ∧ q.seq = p.seq ∧ q.nNode = p.nNode ∧
      q.checkRunnability = p.checkRunnability) := by
  have key : assertPermutation p.inputs l = .ok () ↔ l.Perm p.inputs := by
    rw [assertPermutation_ok_iff]
    constructor
    · rintro ⟨h1, h2⟩
      exact (List.perm_ext_iff_of_nodup h2 hp).2 fun a => by rw [← List.mem_toFinset, h1, List.mem_toFinset]
    · intro h
      exact ⟨List.toFinset_eq_of_perm _ _ h, h.nodup_iff.2 hp⟩
  have err : ∀ e, assertPermutation p.inputs l = .error e → e = .patternError := by
    intro e he
    unfold assertPermutation at he
    split_ifs at he
    · cases he; rfl
    · exact loopErr _ _ _ he
  constructor
  · intro h
    unfold Pattern.reorderInputNodes
    cases h' : assertPermutation p.inputs l with
    | ok u => exact absurd (key.1 h') h
    | error e => rw [err e h']; rfl
  · intro h
    refine ⟨{ p with inputs := l }, ?_, rfl, rfl, rfl, rfl, ?_⟩
    · unfold Pattern.reorderInputNodes; rw [key.2 h]; rfl
    · unfold Pattern.checkRunnability
      dsimp only
      rw [List.toFinset_eq_of_perm _ _ h]

example : (⟨[3, 4], 2, [], [3, 4]⟩ : Pattern).reorderInputNodes [4, 3] = .ok ⟨[4, 3], 2, [], [3, 4]⟩ := rfl

/-! ### Equality -/

/-- **C70** `p == q` holds exactly when the two patterns have the same commands, the same input nodes and the same output nodes in the same orders. -/
theorem C70_eq (p q : Pattern) : p.pyEq q = true ↔ p.seq = q.seq ∧ p.inputs = q.inputs ∧ p.outputs = q.outputs := by
  simp [Pattern.pyEq, and_assoc]

/-! ### Measurements of a standardized pattern -/

/-- **C70** `StandardizedPattern.map(f)` replaces the measurements by their images, and nothing else: the commands of the pattern it denotes are those
of the original with the measurements replaced. -/
theorem C70_std_map (sp : StdPattern) (f : Measurement → Measurement) (edges : List (ℕ × ℕ)) :
    (sp.map f).cmds edges = (sp.cmds edges).map (Command.onMeas f) ∧ (sp.map f).inputs = sp.inputs ∧ (sp.map f).outputs = sp.outputs ∧
    (sp.map f).eSet = sp.eSet := by
  refine ⟨?_, rfl, rfl, rfl⟩
  unfold StdPattern.cmds StdPattern.map
  simp only [List.map_append, List.map_map]
  rfl

/-- **C70** `StandardizedPattern.to_bloch()` only contains Bloch measurements, and does the same thing to every state, for every outcomes. -/
theorem C70_std_to_bloch (sp : StdPattern) (edges : List (ℕ × ℕ)) (r : ℕ → Bool) :
    (∀ m ∈ sp.toBloch.mList, ∃ b, m.measurement = .bloch b) ∧ OpPhaseEq (semCmds r (sp.toBloch.cmds edges)) (semCmds r (sp.cmds edges)) := by
  constructor
  · intro m hm
    obtain ⟨m', -, rfl⟩ := List.mem_map.1 hm
    exact ⟨_, rfl⟩
  · unfold StdPattern.toBloch
    rw [(C70_std_map sp _ edges).1]
    exact onMeas_semCmds r _ fun n m s t _ => observable_toBloch m

/-! ### Duplicates in a mapping -/

theorem reverseMapping_snoc (m : PyDict ℕ ℕ) (k v : ℕ) :
    reverseMapping (m ++ [(k, v)]) = match (reverseMapping m).get? v with
      | some l => (reverseMapping m).set v (l ++ [k])
      | none => (reverseMapping m).set v [k] := by
  unfold reverseMapping
  rw [List.foldl_append]
  rfl

/-- The keys of a value, in the order of the mapping. -/
def keysOf (m : List (ℕ × ℕ)) (v : ℕ) : List ℕ := (m.filter fun kv => decide (kv.2 = v)).map Prod.fst

theorem reverseMapping_spec (m : PyDict ℕ ℕ) :
    (reverseMapping m).keys.Nodup ∧ ∀ v, (reverseMapping m).get? v = if keysOf m v = [] then none else some (keysOf m v) := by
  induction m using List.reverseRecOn with
  | nil => exact ⟨by simp [reverseMapping, PyDict.keys], fun v => by simp [reverseMapping, keysOf]⟩
  | append_singleton m kv ih =>
    obtain ⟨k, v⟩ := kv
    obtain ⟨i1, i2⟩ := ih
    rw [reverseMapping_snoc]
    have app : ∀ w, keysOf (m ++ [(k, v)]) w = keysOf m w ++ if v = w then [k] else [] := by
      intro w; by_cases h : v = w <;> simp [keysOf, h]
    have : (match (reverseMapping m).get? v with
      | some l => (reverseMapping m).set v (l ++ [k])
      | none => (reverseMapping m).set v [k]) = (reverseMapping m).set v (keysOf m v ++ [k]) := by
      rw [i2 v]; by_cases h : keysOf m v = [] <;> simp [h]
    rw [this]
    refine ⟨PyDict.keys_set_nodup i1 _ _, fun w => ?_⟩
    by_cases h : v = w
    · subst h; rw [PyDict.get?_set_self, app]; simp
    · rw [PyDict.get?_set_ne _ _ h, i2, app, if_neg h, List.append_nil]

/-- **C70** The duplicates of a mapping: the values with at least two keys, each with the list of its keys in the order of the mapping. It is empty
exactly when the mapping is injective. -/
theorem C70_duplicates (m : PyDict ℕ ℕ) (hm : m.keys.Nodup) :
    (∀ v l, (duplicatesInMapping m).get? v = some l ↔
      2 ≤ l.length ∧ l.Sublist m.keys ∧ ∀ k, k ∈ l ↔ m.get? k = some v) ∧
    (duplicatesInMapping m = [] ↔ ∀ k k' v, m.get? k = some v → m.get? k' = some v → k = k') := by
  obtain ⟨r1, r2⟩ := reverseMapping_spec m
  have hmem : ∀ v k, k ∈ keysOf m v ↔ m.get? k = some v := by
    intro v k
    unfold keysOf
    rw [List.mem_map]
    constructor
    · rintro ⟨⟨k', v'⟩, h, rfl⟩
      rw [List.mem_filter, decide_eq_true_eq] at h
      obtain ⟨h1, h2⟩ := h
      dsimp only at h2
      subst h2
      exact PyDict.get?_of_mem hm h1
    · intro h
      exact ⟨(k, v), List.mem_filter.2 ⟨PyDict.mem_of_get? h, by simp⟩, rfl⟩
  have hsub : ∀ v, (keysOf m v).Sublist m.keys := fun v => List.Sublist.map _ List.filter_sublist
  have hget : ∀ v l, (duplicatesInMapping m).get? v = some l ↔ 2 ≤ l.length ∧ l = keysOf m v := by
    intro v l
    have hd : (duplicatesInMapping m).keys.Nodup := List.Sublist.nodup (List.Sublist.map _ List.filter_sublist) r1
    constructor
    · intro h
      have h1 := List.mem_filter.1 (PyDict.mem_of_get? h)
      rw [decide_eq_true_eq] at h1
      have h2 := PyDict.get?_of_mem r1 h1.1
      rw [r2] at h2
      split_ifs at h2
      cases h2
      exact ⟨h1.2, rfl⟩
    · rintro ⟨h1, rfl⟩
      refine PyDict.get?_of_mem hd (List.mem_filter.2 ⟨PyDict.mem_of_get? ?_, by rw [decide_eq_true_eq]; exact h1⟩)
      rw [r2, if_neg]
      intro h; rw [h] at h1; simp at h1
  constructor
  · intro v l
    rw [hget]
    refine and_congr_right fun hl => ⟨?_, ?_⟩
    · rintro rfl; exact ⟨hsub v, hmem v⟩
    · rintro ⟨h1, h2⟩
      have h3 : l.Nodup := h1.nodup hm
      have h4 : (keysOf m v).Nodup := (hsub v).nodup hm
      have : ∀ (L a b : List ℕ), L.Nodup → a.Sublist L → b.Sublist L → (∀ x, x ∈ a ↔ x ∈ b) → a = b := by
        intro L a b hL ha hb hab
        have f : ∀ (c : List ℕ), c.Sublist L → L.filter (fun x => decide (x ∈ c)) = c := by
          intro c hc
          have := List.Sublist.filter (fun x => decide (x ∈ c)) hc
          rw [List.filter_eq_self.2 (by simp)] at this
          refine (this.eq_of_length_le ?_).symm
          refine (List.Subperm.length_le ?_)
          exact List.subperm_of_subset (hL.filter _) (fun x hx => by simpa using (List.mem_filter.1 hx).2)
        rw [← f a ha, ← f b hb]
        exact List.filter_congr fun x _ => by simp [hab x]
      exact this _ _ _ hm h1 (hsub v) fun k => by rw [h2, hmem]
  · constructor
    · intro h k k' v hk hk'
      by_contra hne
      have h1 : 2 ≤ (keysOf m v).length := by
        have : [k, k'].Subperm (keysOf m v) := List.subperm_of_subset (by simp [hne]) (by
          intro x hx; simp only [List.mem_cons, List.not_mem_nil, or_false] at hx
          rcases hx with rfl | rfl
          · exact (hmem _ _).2 hk
          · exact (hmem _ _).2 hk')
        simpa using this.length_le
      have := (hget v _).2 ⟨h1, rfl⟩
      rw [h] at this; cases this
    · intro h
      rw [List.eq_nil_iff_forall_not_mem]
      rintro ⟨v, l⟩ hvl
      have hd : (duplicatesInMapping m).keys.Nodup := List.Sublist.nodup (List.Sublist.map _ List.filter_sublist) r1
      obtain ⟨h1, rfl⟩ := (hget v l).1 (PyDict.get?_of_mem hd hvl)
      have h4 : (keysOf m v).Nodup := (hsub v).nodup hm
      match hk : keysOf m v, h1 with
      | a :: b :: l, _ =>
        rw [hk] at h4
        have e := h a b v ((hmem v a).1 (by simp [hk])) ((hmem v b).1 (by simp [hk]))
        subst e
        simp at h4

example : duplicatesInMapping [(0, 5), (1, 6), (2, 5)] = [(5, [0, 2])] := rfl

end Graphix
