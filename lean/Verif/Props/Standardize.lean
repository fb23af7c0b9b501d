import Verif.Proofs.StandardizeInv
import Verif.Props.Pattern

/-!
# Properties C11, C12: standardization
-/

namespace Graphix

open scoped symmDiff

/-! ### Permutation checks -/

theorem assertPermutationLoop_ok_iff (l : List ℕ) (s : Finset ℕ) :
    assertPermutationLoop l s = .ok () ↔ l.Nodup ∧ ∀ x ∈ l, x ∈ s := by
  induction l generalizing s with
  | nil => simp [assertPermutationLoop]
  | cons n l ih =>
    unfold assertPermutationLoop
    split
    · rename_i h
      rw [ih]
      simp only [List.nodup_cons, Finset.mem_erase, List.mem_cons, forall_eq_or_imp]
      constructor
      · rintro ⟨h1, h2⟩
        exact ⟨⟨fun hn => (h2 n hn).1 rfl, h1⟩, h, fun x hx => (h2 x hx).2⟩
      · rintro ⟨⟨h1, h2⟩, -, h4⟩
        exact ⟨h2, fun x hx => ⟨fun e => h1 (e ▸ hx), h4 x hx⟩⟩
    · rename_i h
      simp [h]

/-- `assert_permutation` accepts exactly the duplicate-free rearrangements of the set of nodes. -/
theorem assertPermutation_ok_iff (original user : List ℕ) :
    assertPermutation original user = .ok () ↔ user.toFinset = original.toFinset ∧ user.Nodup := by
  unfold assertPermutation
  split
  · rename_i h; simp [h]
  · rename_i h
    simp only [ne_eq, Decidable.not_not] at h
    rw [assertPermutationLoop_ok_iff]
    simp only [List.mem_toFinset, h, true_and]
    exact ⟨fun h' => h'.1, fun h' => ⟨h', fun x hx => by
      have := List.mem_toFinset.2 hx; rwa [h, List.mem_toFinset] at this⟩⟩

/-- A pattern whose inputs are distinct and whose outputs are its unmeasured nodes, in any order
(what every pattern built through the API satisfies, see `C08_outputs`). -/
structure Pattern.OutputsOk (p : Pattern) : Prop where
  inputs_nodup : p.inputs.Nodup
  outputs_nodup : p.outputs.Nodup
  outputs : ∀ n, n ∈ p.outputs ↔ Live p.inputs p.seq n

/-! ### C11 -/

theorem toPattern_ok {sp : StdPattern} {edges : List (ℕ × ℕ)} {q : Pattern}
    (h : sp.toPattern edges = .ok q) :
    q.seq = sp.cmds edges ∧ q.inputs = sp.inputs ∧ q.outputs = sp.outputs ∧
    (∀ e ∈ edges, e.1 ≠ e.2) ∧ q.nNode = ((Pattern.empty sp.inputs).extend (sp.cmds edges)).nNode := by
  unfold StdPattern.toPattern at h
  split at h
  · cases h
  · rename_i hne
    unfold Pattern.reorderOutputNodes at h
    cases ha : assertPermutation ((Pattern.empty sp.inputs).extend (sp.cmds edges)).outputs sp.outputs with
    | error e => rw [ha] at h; cases h
    | ok u =>
      rw [ha] at h
      cases h
      have := C08_count sp.inputs (sp.cmds edges)
      exact ⟨this.1, this.2.1, rfl, fun e he h => hne ⟨e, he, h⟩, rfl⟩

theorem semCmds_Zs (r : ℕ → Bool) (d : PyDict ℕ (Finset ℕ)) (ψ : QState) :
    semCmds r (d.map (fun kv => Command.Z kv.1 kv.2)) ψ = dictOp (gZ r) d ψ := by
  induction d generalizing ψ with
  | nil => rfl
  | cons kv d ih => simp only [List.map_cons, semCmds_cons, ih]; rfl

theorem semCmds_Xs (r : ℕ → Bool) (d : PyDict ℕ (Finset ℕ)) (ψ : QState) :
    semCmds r (d.map (fun kv => Command.X kv.1 kv.2)) ψ = dictOp (gX r) d ψ := by
  induction d generalizing ψ with
  | nil => rfl
  | cons kv d ih => simp only [List.map_cons, semCmds_cons, ih]; rfl

theorem semCmds_Cs (r : ℕ → Bool) (d : PyDict ℕ Clifford) (ψ : QState) :
    semCmds r (d.map (fun kv => Command.C kv.1 kv.2)) ψ = dictOp Clifford.matrix d ψ := by
  induction d generalizing ψ with
  | nil => rfl
  | cons kv d ih => simp only [List.map_cons, semCmds_cons, ih]; rfl

theorem semCmds_cmds (sp : StdPattern) (edges : List (ℕ × ℕ))
    (h : StdPattern.Enumerates edges sp.eSet) (r : ℕ → Bool) (ψ : QState) :
    semCmds r (sp.cmds edges) ψ = sp.toStdBody.sem r ψ := by
  unfold StdPattern.cmds StdBody.sem corrOp
  rw [semCmds_append, semCmds_append, semCmds_append, semCmds_append, semCmds_append, semCmds_Zs,
    semCmds_Xs, semCmds_Cs, semCmds_edges r edges _ h.1, h.2]
  rfl

/-- **C11** Every pattern returned by `standardize` (whatever the order in which Python enumerates
the set of edges) does, in every branch `r`, the same as the original pattern, up to one global phase,
on every input state; and it has the same input and output nodes in the same order. -/
theorem C11_standardize (p q : Pattern) (hE : NoSelfLoop p.seq) (h : StandardizeResult p q)
    (r : ℕ → Bool) :
    OpPhaseEq (semCmds r p.seq) (semCmds r q.seq) ∧ q.inputs = p.inputs ∧ q.outputs = p.outputs := by
  obtain ⟨sp, h1, edges, h2, h3⟩ := h
  have hi := fromPattern_inv hE h1
  obtain ⟨-, -, e1, e2⟩ := fromPattern_ok h1
  obtain ⟨s1, s2, s3, -, -⟩ := toPattern_ok h3
  refine ⟨?_, by rw [s2, e1], by rw [s3, e2]⟩
  rw [s1]
  exact (hi.sem r).trans (OpPhaseEq.of_eq (fun ψ => (semCmds_cmds sp edges h2 r ψ).symm))

/-! ### C12 -/

theorem dropWhile_block {α : Type} (p : α → Bool) (a b : List α) (ha : ∀ x ∈ a, p x = true)
    (hb : ∀ x ∈ b, p x = false) : (a ++ b).dropWhile p = b := by
  induction a with
  | nil =>
    cases b with
    | nil => rfl
    | cons x b => simp [hb x (by simp)]
  | cons x a ih =>
    simp only [List.cons_append, List.dropWhile_cons, ha x (by simp), if_true]
    exact ih (fun y hy => ha y (by simp [hy]))

theorem isStandardSeq_blocks (n e m xz c : List Command)
    (hn : ∀ x ∈ n, Pattern.kindOf x = .N) (he : ∀ x ∈ e, Pattern.kindOf x = .E)
    (hm : ∀ x ∈ m, Pattern.kindOf x = .M)
    (hxz : ∀ x ∈ xz, Pattern.kindOf x = .X ∨ Pattern.kindOf x = .Z)
    (hc : ∀ x ∈ c, Pattern.kindOf x = .C) :
    Pattern.isStandardSeq (n ++ (e ++ (m ++ (xz ++ c)))) true = true := by
  unfold Pattern.isStandardSeq
  simp only [if_true]
  rw [dropWhile_block _ n, dropWhile_block _ e, dropWhile_block _ m, dropWhile_block _ xz]
  · have := dropWhile_block (fun c => decide (Pattern.kindOf c = .C)) c [] (by simpa using hc) (by simp)
    rw [List.append_nil] at this
    simp [this]
  · intro x hx; rcases hxz x hx with h | h <;> simp [h]
  · intro x hx; simp [hc x hx]
  · intro x hx; simp [hm x hx]
  · intro x hx
    simp only [List.mem_append] at hx
    rcases hx with hx | hx
    · rcases hxz x hx with h | h <;> simp [h]
    · simp [hc x hx]
  · intro x hx; simp [he x hx]
  · intro x hx
    simp only [List.mem_append] at hx
    rcases hx with hx | hx | hx
    · simp [hm x hx]
    · rcases hxz x hx with h | h <;> simp [h]
    · simp [hc x hx]
  · intro x hx; simp [hn x hx]
  · intro x hx
    simp only [List.mem_append] at hx
    rcases hx with hx | hx | hx | hx
    · simp [he x hx]
    · simp [hm x hx]
    · rcases hxz x hx with h | h <;> simp [h]
    · simp [hc x hx]

/-- Appending a block of commands to a runnable sequence. -/
theorem Runnable.append {inputs : List ℕ} {l l' : List Command} (h : Runnable inputs l)
    (h' : ∀ a c b, l' = a ++ c :: b → Allowed inputs (l ++ a) c) : Runnable inputs (l ++ l') := by
  induction l' using List.reverseRecOn with
  | nil => simpa using h
  | append_singleton l' c ih =>
    rw [← List.append_assoc]
    refine Runnable.snoc (ih (fun a c' b e => h' a c' (b ++ [c]) (by simp [e]))) ?_
    exact h' l' c [] rfl

/-- Edge of a command. -/
def Command.edge? : Command → Option (Sym2 ℕ)
  | .E u v => some s(u, v)
  | _ => none

/-- The prefix of the standardized sequence up to the measurements introduces and measures the same
nodes. -/
theorem filterMap_map_none {α : Type} {f : Command → Option ℕ} {g : α → Command} (l : List α)
    (h : ∀ x, f (g x) = none) : (l.map g).filterMap f = [] := by
  induction l with
  | nil => rfl
  | cons a l ih => simp [List.filterMap_cons, h, ih]

theorem filterMap_map_some {α : Type} {f : Command → Option ℕ} {g : α → Command} {k : α → ℕ}
    (l : List α) (h : ∀ x, f (g x) = some (k x)) : (l.map g).filterMap f = l.map k := by
  induction l with
  | nil => rfl
  | cons a l ih => simp [List.filterMap_cons, h, ih]

/-- The part of `StdInv` that does not mention the semantics. -/
structure StdShape (inputs : List ℕ) (pre : List Command) (b : StdBody) : Prop where
  nx : (PyDict.keys b.xDict).Nodup
  nz : (PyDict.keys b.zDict).Nodup
  lc : ∀ k ∈ PyDict.keys b.cDict, Live inputs pre k
  lx : ∀ k ∈ PyDict.keys b.xDict, Live inputs pre k
  lz : ∀ k ∈ PyDict.keys b.zDict, Live inputs pre k
  edge : ∀ e ∈ b.eSet, ∀ k ∈ e, k ∈ introduced inputs pre
  nl : b.nList.map Prod.fst = pre.filterMap Command.prepared?
  ml : b.mList.map MCmd.node = measuredIn pre
  mo : MOrdered b.mList
  dx : ∀ k, ∀ i ∈ domAt b.xDict k, i ∈ measuredIn pre
  dz : ∀ k, ∀ i ∈ domAt b.zDict k, i ∈ measuredIn pre

theorem StdShape.cmds_runnable {inputs : List ℕ} {pre : List Command} {sp : StdPattern}
    (h : StdShape inputs pre sp.toStdBody) (hnd : (introduced inputs pre).Nodup)
    (hmnd : (measuredIn pre).Nodup) (hmsub : ∀ n ∈ measuredIn pre, n ∈ introduced inputs pre)
    (edges : List (ℕ × ℕ)) (hen : StdPattern.Enumerates edges sp.eSet) :
    Runnable inputs (sp.cmds edges) ∧ introduced inputs (sp.cmds edges) = introduced inputs pre ∧
    measuredIn (sp.cmds edges) = measuredIn pre := by
  set N := sp.nList.map (fun n => Command.N n.1 n.2) with hN
  set E := edges.map (fun e => Command.E e.1 e.2) with hEd
  set M := sp.mList.map MCmd.toCmd with hM
  set Z := sp.zDict.map (fun kv => Command.Z kv.1 kv.2) with hZ
  set X := sp.xDict.map (fun kv => Command.X kv.1 kv.2) with hX
  set C := sp.cDict.map (fun kv => Command.C kv.1 kv.2) with hC
  -- bookkeeping
  have pN : N.filterMap Command.prepared? = pre.filterMap Command.prepared? := by
    rw [hN, filterMap_map_some (k := Prod.fst) _ (fun _ => rfl), ← h.nl]
  have mN : N.filterMap Command.measured? = [] := filterMap_map_none _ (fun _ => rfl)
  have pE : E.filterMap Command.prepared? = [] := filterMap_map_none _ (fun _ => rfl)
  have mE : E.filterMap Command.measured? = [] := filterMap_map_none _ (fun _ => rfl)
  have pM : M.filterMap Command.prepared? = [] := filterMap_map_none _ (fun _ => rfl)
  have mM : M.filterMap Command.measured? = measuredIn pre := by
    rw [hM, filterMap_map_some (k := MCmd.node) _ (fun _ => rfl), ← h.ml]
  have pZ : Z.filterMap Command.prepared? = [] := filterMap_map_none _ (fun _ => rfl)
  have mZ : Z.filterMap Command.measured? = [] := filterMap_map_none _ (fun _ => rfl)
  have pX : X.filterMap Command.prepared? = [] := filterMap_map_none _ (fun _ => rfl)
  have mX : X.filterMap Command.measured? = [] := filterMap_map_none _ (fun _ => rfl)
  have pC : C.filterMap Command.prepared? = [] := filterMap_map_none _ (fun _ => rfl)
  have mC : C.filterMap Command.measured? = [] := filterMap_map_none _ (fun _ => rfl)
  have iNE : introduced inputs (N ++ E) = introduced inputs pre := by
    simp only [introduced, List.filterMap_append, pN, pE, List.append_nil]
  have mNE : measuredIn (N ++ E) = [] := by simp [measuredIn, List.filterMap_append, mN, mE]
  have iNEM : introduced inputs (N ++ E ++ M) = introduced inputs pre := by
    rw [introduced_append, iNE, pM, List.append_nil]
  have mNEM : measuredIn (N ++ E ++ M) = measuredIn pre := by
    rw [measuredIn_append, mNE, mM, List.nil_append]
  have i4 : introduced inputs (N ++ E ++ M ++ Z) = introduced inputs pre := by
    rw [introduced_append, iNEM, pZ, List.append_nil]
  have m4 : measuredIn (N ++ E ++ M ++ Z) = measuredIn pre := by
    rw [measuredIn_append, mNEM, mZ, List.append_nil]
  have i5 : introduced inputs (N ++ E ++ M ++ Z ++ X) = introduced inputs pre := by
    rw [introduced_append, i4, pX, List.append_nil]
  have m5 : measuredIn (N ++ E ++ M ++ Z ++ X) = measuredIn pre := by
    rw [measuredIn_append, m4, mX, List.append_nil]
  have e : sp.cmds edges = N ++ E ++ M ++ Z ++ X ++ C := rfl
  rw [e]
  refine ⟨?_, by rw [introduced_append, i5, pC, List.append_nil],
    by rw [measuredIn_append, m5, mC, List.append_nil]⟩
  -- preparations
  have rN : Runnable inputs N := by
    have := Runnable.append (runnable_nil inputs) (l' := N) ?_
    · simpa using this
    intro a c b hab
    have hc : c ∈ N := by rw [hab]; simp
    obtain ⟨n, hn, rfl⟩ := List.mem_map.1 hc
    have : introduced inputs pre = introduced inputs a ++ n.1 :: b.filterMap Command.prepared? := by
      rw [introduced, ← pN, hab, introduced]
      simp [List.filterMap_append, List.filterMap_cons, Command.prepared?]
    rw [this] at hnd
    simp only [List.nil_append, Allowed]
    intro hmem
    exact (List.nodup_append.1 hnd).2.2 n.1 hmem n.1 (by simp) rfl
  -- edges
  have rNE : Runnable inputs (N ++ E) := by
    refine Runnable.append rN ?_
    intro a c b hab
    have hc : c ∈ E := by rw [hab]; simp
    obtain ⟨ed, hed, rfl⟩ := List.mem_map.1 hc
    have hmem : s(ed.1, ed.2) ∈ sp.eSet := by
      rw [← hen.2]; simp only [List.mem_toFinset]; exact List.mem_map_of_mem hed
    have pa : a.filterMap Command.prepared? = [] := by
      rw [hab] at pE; simp only [List.filterMap_append, List.append_eq_nil_iff] at pE; exact pE.1
    have ma : a.filterMap Command.measured? = [] := by
      rw [hab] at mE; simp only [List.filterMap_append, List.append_eq_nil_iff] at mE; exact mE.1
    have hint : introduced inputs (N ++ a) = introduced inputs pre := by
      simp only [introduced, List.filterMap_append, pN, pa, List.append_nil]
    have hmeas : measuredIn (N ++ a) = [] := by simp [measuredIn, List.filterMap_append, mN, ma]
    exact ⟨⟨hint ▸ h.edge _ hmem _ (Sym2.mem_mk_left _ _), by simp [hmeas]⟩,
      ⟨hint ▸ h.edge _ hmem _ (Sym2.mem_mk_right _ _), by simp [hmeas]⟩⟩
  -- measurements
  have rNEM : Runnable inputs (N ++ E ++ M) := by
    refine Runnable.append rNE ?_
    intro a c b hab
    obtain ⟨l1, l2, hl, rfl, hcb⟩ := List.map_eq_append_iff.1 (hM ▸ hab)
    obtain ⟨m, l3, rfl, rfl, rfl⟩ := List.map_eq_cons_iff.1 hcb
    have hmeas : measuredIn (N ++ E ++ l1.map MCmd.toCmd) = l1.map MCmd.node := by
      rw [measuredIn_append, mNE, List.nil_append, filterMap_map_some (k := MCmd.node) _ (fun _ => rfl)]
    have hint : introduced inputs (N ++ E ++ l1.map MCmd.toCmd) = introduced inputs pre := by
      rw [introduced_append, iNE, filterMap_map_none _ (fun _ => rfl), List.append_nil]
    have hml := h.ml
    rw [hl] at hml
    simp only [List.map_append, List.map_cons] at hml
    have hmo := h.mo l1 m l3 hl
    refine ⟨⟨?_, ?_⟩, ?_, ?_⟩
    · rw [hint]; apply hmsub; rw [← hml]; simp
    · rw [hmeas]
      rw [← hml] at hmnd
      intro hmem
      exact (List.nodup_append.1 hmnd).2.2 m.node hmem m.node (by simp) rfl
    · rw [hmeas]; exact hmo.1
    · rw [hmeas]; exact hmo.2
  have hsome : ∀ {β : Type} {d : PyDict ℕ β} {kv : ℕ × β}, kv ∈ d → kv.1 ∈ PyDict.keys d :=
    fun hkv => List.mem_map_of_mem hkv
  have hat : ∀ {d : PyDict ℕ (Finset ℕ)} {kv : ℕ × Finset ℕ}, (PyDict.keys d).Nodup → kv ∈ d →
      domAt d kv.1 = kv.2 := by
    intro d kv hnd hkv; unfold domAt; rw [PyDict.get?_of_mem hnd hkv]; rfl
  -- Z
  have rZ : Runnable inputs (N ++ E ++ M ++ Z) := by
    refine Runnable.append rNEM ?_
    intro a c b hab
    have hc : c ∈ Z := by rw [hab]; simp
    obtain ⟨kv, hkv, rfl⟩ := List.mem_map.1 hc
    have pa : a.filterMap Command.prepared? = [] := by
      rw [hab] at pZ; simp only [List.filterMap_append, List.append_eq_nil_iff] at pZ; exact pZ.1
    have ma : a.filterMap Command.measured? = [] := by
      rw [hab] at mZ; simp only [List.filterMap_append, List.append_eq_nil_iff] at mZ; exact mZ.1
    have hint : introduced inputs (N ++ E ++ M ++ a) = introduced inputs pre := by
      rw [introduced_append, iNEM, pa, List.append_nil]
    have hmeas : measuredIn (N ++ E ++ M ++ a) = measuredIn pre := by
      rw [measuredIn_append, mNEM, ma, List.append_nil]
    have hlive := h.lz kv.1 (hsome hkv)
    refine ⟨⟨hint ▸ hlive.1, hmeas ▸ hlive.2⟩, ?_⟩
    rw [hmeas, ← hat h.nz hkv]; exact h.dz kv.1
  have rX : Runnable inputs (N ++ E ++ M ++ Z ++ X) := by
    refine Runnable.append rZ ?_
    intro a c b hab
    have hc : c ∈ X := by rw [hab]; simp
    obtain ⟨kv, hkv, rfl⟩ := List.mem_map.1 hc
    have pa : a.filterMap Command.prepared? = [] := by
      rw [hab] at pX; simp only [List.filterMap_append, List.append_eq_nil_iff] at pX; exact pX.1
    have ma : a.filterMap Command.measured? = [] := by
      rw [hab] at mX; simp only [List.filterMap_append, List.append_eq_nil_iff] at mX; exact mX.1
    have hint : introduced inputs (N ++ E ++ M ++ Z ++ a) = introduced inputs pre := by
      rw [introduced_append, i4, pa, List.append_nil]
    have hmeas : measuredIn (N ++ E ++ M ++ Z ++ a) = measuredIn pre := by
      rw [measuredIn_append, m4, ma, List.append_nil]
    have hlive := h.lx kv.1 (hsome hkv)
    refine ⟨⟨hint ▸ hlive.1, hmeas ▸ hlive.2⟩, ?_⟩
    rw [hmeas, ← hat h.nx hkv]; exact h.dx kv.1
  refine Runnable.append rX ?_
  intro a c b hab
  have hc : c ∈ C := by rw [hab]; simp
  obtain ⟨kv, hkv, rfl⟩ := List.mem_map.1 hc
  have pa : a.filterMap Command.prepared? = [] := by
    rw [hab] at pC; simp only [List.filterMap_append, List.append_eq_nil_iff] at pC; exact pC.1
  have ma : a.filterMap Command.measured? = [] := by
    rw [hab] at mC; simp only [List.filterMap_append, List.append_eq_nil_iff] at mC; exact mC.1
  have hint : introduced inputs (N ++ E ++ M ++ Z ++ X ++ a) = introduced inputs pre := by
    rw [introduced_append, i5, pa, List.append_nil]
  have hmeas : measuredIn (N ++ E ++ M ++ Z ++ X ++ a) = measuredIn pre := by
    rw [measuredIn_append, m5, ma, List.append_nil]
  have hlive := h.lc kv.1 (hsome hkv)
  exact ⟨hint ▸ hlive.1, hmeas ▸ hlive.2⟩

theorem StdInv.cmds_runnable {inputs : List ℕ} {pre : List Command} {sp : StdPattern}
    (h : StdInv inputs pre sp.toStdBody) (hi : inputs.Nodup) (hR : Runnable inputs pre)
    (edges : List (ℕ × ℕ)) (hen : StdPattern.Enumerates edges sp.eSet) :
    Runnable inputs (sp.cmds edges) ∧ introduced inputs (sp.cmds edges) = introduced inputs pre ∧
    measuredIn (sp.cmds edges) = measuredIn pre :=
  StdShape.cmds_runnable ⟨h.nx, h.nz, h.lc, h.lx, h.lz, h.edge, h.nl, h.ml, h.mo, h.dx, h.dz⟩
    (hR.introduced_nodup hi) hR.measured_nodup hR.measured_sub edges hen

theorem filterMap_edge_cmds (sp : StdPattern) (edges : List (ℕ × ℕ)) :
    (sp.cmds edges).filterMap Command.edge? = edges.map (fun e => s(e.1, e.2)) := by
  have none : ∀ {α : Type} {g : α → Command} (l : List α), (∀ x, (g x).edge? = none) →
      (l.map g).filterMap Command.edge? = [] := by
    intro α g l h
    induction l with
    | nil => rfl
    | cons a l ih => simp [List.filterMap_cons, h, ih]
  have some : (edges.map (fun e => Command.E e.1 e.2)).filterMap Command.edge? =
      edges.map (fun e => s(e.1, e.2)) := by
    induction edges with
    | nil => rfl
    | cons a l ih => simp [List.filterMap_cons, Command.edge?, ih]
  unfold StdPattern.cmds
  simp only [List.filterMap_append, some]
  rw [none sp.nList (fun _ => rfl), none sp.mList (fun _ => rfl), none sp.zDict (fun _ => rfl),
    none sp.xDict (fun _ => rfl), none sp.cDict (fun _ => rfl)]
  simp

theorem cmds_standard (sp : StdPattern) (edges : List (ℕ × ℕ)) :
    Pattern.isStandardSeq (sp.cmds edges) true = true := by
  have e : sp.cmds edges = sp.nList.map (fun n => .N n.1 n.2) ++ (edges.map (fun e => .E e.1 e.2) ++
    (sp.mList.map MCmd.toCmd ++ ((sp.zDict.map (fun kv => .Z kv.1 kv.2) ++
    sp.xDict.map (fun kv => .X kv.1 kv.2)) ++ sp.cDict.map (fun kv => .C kv.1 kv.2)))) := by
    simp [StdPattern.cmds]
  rw [e]
  apply isStandardSeq_blocks
  · intro x hx; obtain ⟨_, _, rfl⟩ := List.mem_map.1 hx; rfl
  · intro x hx; obtain ⟨_, _, rfl⟩ := List.mem_map.1 hx; rfl
  · intro x hx; obtain ⟨_, _, rfl⟩ := List.mem_map.1 hx; rfl
  · intro x hx
    rcases List.mem_append.1 hx with hx | hx
    · obtain ⟨_, _, rfl⟩ := List.mem_map.1 hx; right; rfl
    · obtain ⟨_, _, rfl⟩ := List.mem_map.1 hx; left; rfl
  · intro x hx; obtain ⟨_, _, rfl⟩ := List.mem_map.1 hx; rfl

/-- **C12** Every result `q` of `standardize` is in (strict) standard form, runnable, has the inputs
and outputs of `p`, the same introduced nodes and the same measured nodes, each in the same order,
and contains each edge at most once. -/
theorem C12_standard_form (p q : Pattern) (hi : p.inputs.Nodup) (hE : NoSelfLoop p.seq)
    (h : StandardizeResult p q) :
    q.isStandard true = true ∧ q.checkRunnability = .ok () ∧
    q.inputs = p.inputs ∧ q.outputs = p.outputs ∧
    introduced q.inputs q.seq = introduced p.inputs p.seq ∧
    measuredIn q.seq = measuredIn p.seq ∧
    (q.seq.filterMap Command.edge?).Nodup ∧ NoSelfLoop q.seq := by
  obtain ⟨sp, h1, edges, h2, h3⟩ := h
  have hinv := fromPattern_inv hE h1
  obtain ⟨hR, -, e1, e2⟩ := fromPattern_ok h1
  obtain ⟨s1, s2, s3, s4, -⟩ := toPattern_ok h3
  obtain ⟨c1, c2, c3⟩ := hinv.cmds_runnable hi hR edges h2
  have hq : q.inputs = p.inputs := by rw [s2, e1]
  refine ⟨?_, ?_, hq, by rw [s3, e2], ?_, ?_, ?_, ?_⟩
  · unfold Pattern.isStandard; rw [s1]; exact cmds_standard sp edges
  · rw [checkRunnability_iff, hq, s1]; exact c1
  · rw [hq, s1]; exact c2
  · rw [s1]; exact c3
  · rw [s1, filterMap_edge_cmds]; exact h2.1
  · intro u v huv
    rw [s1] at huv
    have : s(u, v) ∈ (sp.cmds edges).filterMap Command.edge? :=
      List.mem_filterMap.2 ⟨_, huv, rfl⟩
    rw [filterMap_edge_cmds] at this
    obtain ⟨e, he, heq⟩ := List.mem_map.1 this
    intro huv'
    subst huv'
    have := s4 e he
    rw [Sym2.eq_iff] at heq
    rcases heq with ⟨h1, h2⟩ | ⟨h1, h2⟩ <;> exact this (h1.trans h2.symm)

/-- **C12** Once the loop of `from_pattern` succeeds on a pattern whose outputs are its unmeasured
nodes, building the standardized pattern never raises, for any enumeration of the edges. -/
theorem C12_to_pattern_succeeds (p : Pattern) (hp : p.OutputsOk) (hE : NoSelfLoop p.seq)
    (sp : StdPattern) (h : StdPattern.fromPattern p = .ok sp) (edges : List (ℕ × ℕ))
    (hen : StdPattern.Enumerates edges sp.eSet) : ∃ q, sp.toPattern edges = .ok q := by
  have hinv := fromPattern_inv hE h
  obtain ⟨hR, -, e1, e2⟩ := fromPattern_ok h
  obtain ⟨c1, c2, c3⟩ := hinv.cmds_runnable hp.inputs_nodup hR edges hen
  unfold StdPattern.toPattern
  rw [if_neg]
  · unfold Pattern.reorderOutputNodes
    have : assertPermutation ((Pattern.empty sp.inputs).extend (sp.cmds edges)).outputs sp.outputs =
        .ok () := by
      rw [assertPermutation_ok_iff, e1, e2]
      refine ⟨?_, hp.outputs_nodup⟩
      rw [C08_outputs _ hp.inputs_nodup _ c1, c2, c3]
      ext n
      simp only [List.mem_toFinset, List.mem_filter, decide_eq_true_eq]
      exact hp.outputs n
    rw [this]
    exact ⟨_, rfl⟩
  · rintro ⟨e, he, hee⟩
    refine hinv.loop s(e.1, e.2) ?_ (by simpa using hee)
    rw [← hen.2]; simp only [List.mem_toFinset]; exact List.mem_map_of_mem he

theorem enumerates_exists (E : Finset (Sym2 ℕ)) : ∃ edges, StdPattern.Enumerates edges E := by
  refine ⟨E.toList.map Quot.out, ?_, ?_⟩ <;> rw [List.map_map]
  · have : ((fun e : ℕ × ℕ => s(e.1, e.2)) ∘ Quot.out) = id := by
      funext e; exact Quot.out_eq e
    rw [this, List.map_id]; exact E.nodup_toList
  · have : ((fun e : ℕ × ℕ => s(e.1, e.2)) ∘ Quot.out) = id := by
      funext e; exact Quot.out_eq e
    rw [this, List.map_id]; exact E.toList_toFinset

/-- The loop succeeds when there is no Clifford command. -/
theorem StdBody.run_ok_of_no_clifford (l : List Command) (hl : ∀ n c, Command.C n c ∉ l) :
    ∀ b : StdBody, b.cDict = [] → ∃ b', b.run l = .ok b' := by
  induction l with
  | nil => intro b _; exact ⟨b, rfl⟩
  | cons c l ih =>
    intro b hb
    have key : ∃ b', b.step c = .ok b' ∧ b'.cDict = [] := by
      cases c with
      | N n st => exact ⟨_, rfl, hb⟩
      | E u v =>
        have side : ∀ (b : StdBody) i j, b.cDict = [] → ∃ b', b.edgeSide i j = .ok b' ∧ b'.cDict = [] := by
          intro b i j hb
          unfold StdBody.edgeSide
          rw [hb]
          exact ⟨_, rfl, rfl⟩
        obtain ⟨b1, h1, h1'⟩ := side b u v hb
        obtain ⟨b2, h2, h2'⟩ := side b1 v u h1'
        refine ⟨{ b2 with eSet := b2.eSet ∆ {s(u, v)} }, ?_, h2'⟩
        change (b.edgeSide u v >>= fun b1 => b1.edgeSide v u >>= fun b2 =>
          pure { b2 with eSet := b2.eSet ∆ {s(u, v)} }) = _
        rw [h1]; change (b1.edgeSide v u >>= _) = _; rw [h2]; rfl
      | M n m s t =>
        change ∃ b', b.measureCase ⟨n, m, s, t⟩ = .ok b' ∧ _
        unfold StdBody.measureCase
        rw [hb]
        exact ⟨_, rfl, rfl⟩
      | X n d =>
        change ∃ b', b.correctionCase n ⟨d, ∅⟩ = .ok b' ∧ _
        unfold StdBody.correctionCase
        obtain ⟨d', h, -⟩ := C04_commute_domains ((PyDict.get? b.cDict n).getD Clifford.I) ⟨d, ∅⟩
        rw [h]; exact ⟨_, rfl, hb⟩
      | Z n d =>
        change ∃ b', b.correctionCase n ⟨∅, d⟩ = .ok b' ∧ _
        unfold StdBody.correctionCase
        obtain ⟨d', h, -⟩ := C04_commute_domains ((PyDict.get? b.cDict n).getD Clifford.I) ⟨∅, d⟩
        rw [h]; exact ⟨_, rfl, hb⟩
      | C n g => exact absurd (by simp) (hl n g)
      | S n d => exact ⟨_, rfl, hb⟩
      | T => exact ⟨_, rfl, hb⟩
    obtain ⟨b1, h1, h2⟩ := key
    obtain ⟨b', h'⟩ := ih (fun n g hm => hl n g (by simp [hm])) b1 h2
    exact ⟨b', by change (b.step c >>= fun b => b.run l) = _; rw [h1]; exact h'⟩

/-- **C12** `standardize` accepts every runnable pattern without Clifford commands. -/
theorem C12_accepts_without_clifford (p : Pattern) (hp : p.OutputsOk) (hE : NoSelfLoop p.seq)
    (hr : p.checkRunnability = .ok ()) (hc : ∀ n c, Command.C n c ∉ p.seq) :
    ∃ q, StandardizeResult p q := by
  obtain ⟨b, hb⟩ := StdBody.run_ok_of_no_clifford p.seq hc StdBody.init rfl
  have h : StdPattern.fromPattern p = .ok { b with inputs := p.inputs, outputs := p.outputs } := by
    unfold StdPattern.fromPattern
    rw [hr, hb]; rfl
  obtain ⟨edges, hen⟩ := enumerates_exists b.eSet
  obtain ⟨q, hq⟩ := C12_to_pattern_succeeds p hp hE _ h edges hen
  exact ⟨q, _, h, edges, hen, hq⟩

/-! ### Instances -/

/-- Corrections before entangling and measuring: input 0, X-correction on 1 before `E(1,2)`. -/
noncomputable def stdExample : Pattern :=
  (Pattern.empty [0]).extend
    [.N 1 .plus, .E 0 1, .M 0 (.bloch ⟨1/4, .XY⟩) ∅ ∅, .X 1 {0}, .N 2 .plus, .E 1 2,
     .M 1 (.bloch ⟨1/8, .XY⟩) ∅ ∅, .X 2 {1}]

theorem stdExample_runnable : stdExample.checkRunnability = .ok () := rfl

theorem stdExample_outputsOk : stdExample.OutputsOk := by
  have e := C08_count [0] [.N 1 .plus, .E 0 1, .M 0 (.bloch ⟨1/4, .XY⟩) ∅ ∅, .X 1 {0}, .N 2 .plus, .E 1 2,
     .M 1 (.bloch ⟨1/8, .XY⟩) ∅ ∅, .X 2 {1}]
  refine ⟨by decide, by decide, fun n => ?_⟩
  have hr := (checkRunnability_iff stdExample).1 stdExample_runnable
  have ho := C08_outputs [0] (by decide) stdExample.seq (by exact hr)
  have : stdExample.outputs = [2] := rfl
  rw [this]
  have hl : (introduced [0] stdExample.seq).filter (fun n => n ∉ measuredIn stdExample.seq) = [2] := rfl
  have h2 : n ∈ (introduced [0] stdExample.seq).filter (fun n => n ∉ measuredIn stdExample.seq) ↔
      Live stdExample.inputs stdExample.seq n := by
    simp only [List.mem_filter, decide_eq_true_eq]; rfl
  rw [← h2, hl]

/-- the hypotheses of C11 and C12 are met, and the standard form of the example: the X-correction on
1 becomes an s-domain of the measurement of 1 and, through `E(1,2)`, a Z-correction on 2. -/
example : ∃ q, StandardizeResult stdExample q ∧ NoSelfLoop stdExample.seq ∧
    q.seq = [.N 1 .plus, .N 2 .plus, .E 0 1, .E 1 2, .M 0 (.bloch ⟨1/4, .XY⟩) (∅ ∆ ∅) (∅ ∆ ∅),
      .M 1 (.bloch ⟨1/8, .XY⟩) (∅ ∆ {0}) (∅ ∆ ∅), .Z 2 {0}, .X 2 {1}] := by
  refine ⟨⟨[0], 3, [.N 1 .plus, .N 2 .plus, .E 0 1, .E 1 2, .M 0 (.bloch ⟨1/4, .XY⟩) (∅ ∆ ∅) (∅ ∆ ∅),
      .M 1 (.bloch ⟨1/8, .XY⟩) (∅ ∆ {0}) (∅ ∆ ∅), .Z 2 {0}, .X 2 {1}], [2]⟩,
    ⟨_, rfl, [(0, 1), (1, 2)], ⟨by decide, by decide⟩, rfl⟩, ?_, rfl⟩
  intro u v h
  have h' : Command.E u v ∈ [Command.N 1 .plus, .E 0 1, .M 0 (.bloch ⟨1/4, .XY⟩) ∅ ∅, .X 1 {0},
    .N 2 .plus, .E 1 2, .M 1 (.bloch ⟨1/8, .XY⟩) ∅ ∅, .X 2 {1}] := h
  simp at h'
  omega

example : ∃ q, StandardizeResult stdExample q := by
  refine C12_accepts_without_clifford _ stdExample_outputsOk ?_ stdExample_runnable ?_
  · intro u v h
    have h' : Command.E u v ∈ [Command.N 1 .plus, .E 0 1, .M 0 (.bloch ⟨1/4, .XY⟩) ∅ ∅, .X 1 {0},
      .N 2 .plus, .E 1 2, .M 1 (.bloch ⟨1/8, .XY⟩) ∅ ∅, .X 2 {1}] := h
    simp at h'
    omega
  · intro n c h
    have h' : Command.C n c ∈ [Command.N 1 .plus, .E 0 1, .M 0 (.bloch ⟨1/4, .XY⟩) ∅ ∅, .X 1 {0},
      .N 2 .plus, .E 1 2, .M 1 (.bloch ⟨1/8, .XY⟩) ∅ ∅, .X 2 {1}] := h
    simp at h'

end Graphix
