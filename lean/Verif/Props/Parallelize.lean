import Verif.Model.Parallelize
import Verif.Props.StdOpenGraph
import Verif.Props.SpaceMin

/-!
# C55: parallelization
-/

namespace Graphix
namespace Pattern

open scoped symmDiff

/-! ### Standard sequences -/

theorem takeWhile_all {α : Type} (p : α → Bool) (l : List α) : ∀ x ∈ l.takeWhile p, p x = true := by
  induction l with
  | nil => simp
  | cons a l ih =>
    intro x hx
    rw [List.takeWhile_cons] at hx
    split at hx
    · rcases List.mem_cons.1 hx with rfl | hx
      · assumption
      · exact ih x hx
    · cases hx

theorem dropWhile_nil_iff {α : Type} (p : α → Bool) (l : List α) : l.dropWhile p = [] ↔ ∀ x ∈ l, p x = true := by
  induction l with
  | nil => simp
  | cons a l ih =>
    rw [List.dropWhile_cons]
    split
    · rw [ih]; simp_all
    · simp_all

theorem isStandardSeq_split {l : List Command} {strict : Bool} (h : isStandardSeq l strict = true) :
    ∃ a b, l = a ++ b ∧ (∀ c ∈ a, kindOf c = .N ∨ kindOf c = .E ∨ kindOf c = .M) ∧ (∀ c ∈ b, kindOf c = .X ∨ kindOf c = .Z ∨ kindOf c = .C) := by
  unfold isStandardSeq at h
  simp only [] at h
  set l1 := l.dropWhile (fun c => kindOf c = .N) with h1
  set l2 := l1.dropWhile (fun c => kindOf c = .E) with h2
  set l3 := l2.dropWhile (fun c => kindOf c = .M) with h3
  refine ⟨l.takeWhile (fun c => kindOf c = .N) ++ l1.takeWhile (fun c => kindOf c = .E) ++ l2.takeWhile (fun c => kindOf c = .M), l3, ?_, ?_, ?_⟩
  · rw [List.append_assoc, h3, List.takeWhile_append_dropWhile, List.append_assoc, h2, List.takeWhile_append_dropWhile, h1, List.takeWhile_append_dropWhile]
  · intro c hc
    rw [List.mem_append, List.mem_append] at hc
    rcases hc with (hc | hc) | hc
    · exact .inl (by simpa using takeWhile_all _ _ c hc)
    · exact .inr (.inl (by simpa using takeWhile_all _ _ c hc))
    · exact .inr (.inr (by simpa using takeWhile_all _ _ c hc))
  · cases strict with
    | false =>
      simp only [Bool.false_eq_true, if_false, List.isEmpty_iff] at h
      intro c hc
      have := (dropWhile_nil_iff _ _).1 h c hc
      simpa [or_assoc] using this
    | true =>
      simp only [if_true, List.isEmpty_iff] at h
      intro c hc
      have h' := (dropWhile_nil_iff _ _).1 h
      rw [← List.takeWhile_append_dropWhile (p := fun c => decide (kindOf c = .X) || decide (kindOf c = .Z)) (l := l3), List.mem_append] at hc
      rcases hc with hc | hc
      · have := takeWhile_all _ _ c hc
        simp at this
        tauto
      · have := h' c hc
        simp at this
        tauto

theorem isStandard_weaken {l : List Command} (h : isStandardSeq l true = true) : isStandardSeq l false = true := by
  unfold isStandardSeq at h ⊢
  simp only [if_true, List.isEmpty_iff, Bool.false_eq_true, if_false] at h ⊢
  set l3 := ((l.dropWhile (fun c => kindOf c = .N)).dropWhile (fun c => kindOf c = .E)).dropWhile (fun c => kindOf c = .M)
  rw [dropWhile_nil_iff] at h ⊢
  intro c hc
  rw [← List.takeWhile_append_dropWhile (p := fun c => decide (kindOf c = .X) || decide (kindOf c = .Z)) (l := l3), List.mem_append] at hc
  rcases hc with hc | hc
  · have := takeWhile_all _ _ c hc
    simp at this ⊢
    tauto
  · have := h c hc
    simp at this ⊢
    tauto

theorem mCommands_append (a b : List Command) : mCommands (a ++ b) = mCommands a ++ mCommands b := List.filterMap_append

theorem mCommands_nil_of {b : List Command} (h : ∀ c ∈ b, kindOf c ≠ .M) : mCommands b = [] := by
  unfold mCommands
  rw [List.filterMap_eq_nil_iff]
  intro c hc
  have := h c hc
  cases c <;> simp_all [kindOf]

theorem run_append (a b : List Command) : ∀ s : StdBody, s.run (a ++ b) = s.run a >>= fun s' => s'.run b := by
  induction a with
  | nil => intro s; rfl
  | cons c a ih =>
    intro s
    show (s.step c >>= fun s' => s'.run (a ++ b)) = (s.step c >>= fun s' => s'.run a) >>= fun s' => s'.run b
    cases s.step c with
    | error e => rfl
    | ok s' => exact ih s'

theorem run_first (a : List Command) (h : ∀ c ∈ a, kindOf c = .N ∨ kindOf c = .E ∨ kindOf c = .M) : ∀ s : StdBody, s.cDict = [] → s.xDict = [] → s.zDict = [] →
    ∃ s', s.run a = .ok s' ∧ s'.cDict = [] ∧ s'.xDict = [] ∧ s'.zDict = [] ∧ s'.mList = s.mList ++ mCommands a := by
  induction a with
  | nil => intro s h1 h2 h3; exact ⟨s, rfl, h1, h2, h3, by simp [mCommands]⟩
  | cons c a ih =>
    intro s h1 h2 h3
    have hc := h c (by simp)
    have key : ∃ s', s.step c = .ok s' ∧ s'.cDict = [] ∧ s'.xDict = [] ∧ s'.zDict = [] ∧ s'.mList = s.mList ++ mCommands [c] := by
      cases c with
      | N n st => exact ⟨_, rfl, h1, h2, h3, by simp [mCommands]⟩
      | E u v =>
        refine ⟨{ s with eSet := s.eSet ∆ {s(u, v)} }, ?_, h1, h2, h3, by simp [mCommands]⟩
        obtain ⟨nL, eS, mL, cD, zD, xD⟩ := s
        simp only at h1 h2 h3
        subst h1 h2 h3
        rfl
      | M n m d e =>
        refine ⟨{ s with mList := s.mList ++ [⟨n, m, d, e⟩] }, ?_, h1, h2, h3, by simp [mCommands]⟩
        obtain ⟨nL, eS, mL, cD, zD, xD⟩ := s
        simp only at h1 h2 h3
        subst h1 h2 h3
        show Except.ok _ = _
        simp [PyDict.get?, PyDict.erase]
      | _ => simp [kindOf] at hc
    obtain ⟨s1, e1, c1, x1, z1, m1⟩ := key
    obtain ⟨s2, e2, c2, x2, z2, m2⟩ := ih (fun c hc => h c (by simp [hc])) s1 c1 x1 z1
    refine ⟨s2, ?_, c2, x2, z2, ?_⟩
    · show (s.step c >>= fun s' => s'.run a) = _
      rw [e1]; exact e2
    · rw [m2, m1, List.append_assoc, ← mCommands_append]; rfl

theorem run_last (b : List Command) (h : ∀ c ∈ b, kindOf c = .X ∨ kindOf c = .Z ∨ kindOf c = .C) : ∀ s : StdBody, ∃ s', s.run b = .ok s' ∧ s'.mList = s.mList := by
  induction b with
  | nil => intro s; exact ⟨s, rfl, rfl⟩
  | cons c b ih =>
    intro s
    have hc := h c (by simp)
    have key : ∃ s', s.step c = .ok s' ∧ s'.mList = s.mList := by
      have hcorr : ∀ n d, ∃ s', s.correctionCase n d = .ok s' ∧ s'.mList = s.mList := by
        intro n d
        unfold StdBody.correctionCase
        obtain ⟨d', hd, -⟩ := C04_commute_domains ((PyDict.get? s.cDict n).getD Clifford.I) d
        rw [hd]
        exact ⟨_, rfl, rfl⟩
      cases c with
      | X n d => exact hcorr n _
      | Z n d => exact hcorr n _
      | C n c => exact ⟨_, rfl, rfl⟩
      | _ => simp [kindOf] at hc
    obtain ⟨s1, e1, m1⟩ := key
    obtain ⟨s2, e2, m2⟩ := ih (fun c hc => h c (by simp [hc])) s1
    refine ⟨s2, ?_, by rw [m2, m1]⟩
    show (s.step c >>= fun s' => s'.run b) = _
    rw [e1]; exact e2

/-- A runnable pattern in standard form is accepted by `from_pattern`, which keeps its measurements. -/
theorem fromPattern_standard {p : Pattern} (hr : p.checkRunnability = .ok ()) (hs : p.isStandard false = true) :
    ∃ sp, StdPattern.fromPattern p = .ok sp ∧ sp.mList = mCommands p.seq := by
  obtain ⟨a, b, hab, ha, hb⟩ := isStandardSeq_split hs
  obtain ⟨s1, e1, -, -, -, m1⟩ := run_first a ha StdBody.init rfl rfl rfl
  obtain ⟨s2, e2, m2⟩ := run_last b hb s1
  refine ⟨{ s2 with inputs := p.inputs, outputs := p.outputs }, ?_, ?_⟩
  · unfold StdPattern.fromPattern
    rw [hr, hab, run_append, e1]
    show (s1.run b >>= _) = _
    rw [e2]; rfl
  · show s2.mList = _
    rw [m2, m1, hab, mCommands_append, mCommands_nil_of (b := b)]
    · simp [StdBody.init]
    · intro c hc h
      rcases hb c hc with h' | h' | h' <;> rw [h] at h' <;> cases h'

/-! ### The order of the layers -/

theorem flatMap_before {gens : List (Finset ℕ)} {f : Finset ℕ → List ℕ} (hf : ∀ s x, x ∈ f s ↔ x ∈ s) (hd : gens.Pairwise Disjoint)
    {i j : ℕ} {Li Lj : Finset ℕ} (hi : gens[i]? = some Li) (hj : gens[j]? = some Lj) (hij : i < j) {u v : ℕ} (hu : u ∈ Li) (hv : v ∈ Lj)
    {a c : List ℕ} (h : gens.flatMap f = a ++ v :: c) : u ∈ a := by
  obtain ⟨hjl, hjv⟩ := List.getElem?_eq_some_iff.1 hj
  have hs : gens = gens.take j ++ Lj :: gens.drop (j + 1) := by
    rw [← hjv, List.getElem_cons_drop, List.take_append_drop]
  have hnot : v ∉ (gens.take j).flatMap f := by
    intro hm
    obtain ⟨L, hL, hvL⟩ := List.mem_flatMap.1 hm
    rw [hs, List.pairwise_append] at hd
    exact Finset.disjoint_left.1 (hd.2.2 L hL Lj (by simp)) ((hf _ _).1 hvL) hv
  have hum : u ∈ (gens.take j).flatMap f := by
    refine List.mem_flatMap.2 ⟨Li, ?_, (hf _ _).2 hu⟩
    rw [List.mem_iff_getElem?]
    exact ⟨i, by rw [List.getElem?_take_of_lt hij, hi]⟩
  rw [hs, List.flatMap_append] at h
  rcases List.append_eq_append_iff.1 h with ⟨d, h1, h2⟩ | ⟨d, h1, h2⟩
  · rw [h1]; exact List.mem_append_left _ hum
  · cases d with
    | nil => rw [h1, List.append_nil] at hum; exact hum
    | cons x d =>
      simp only [List.cons_append, List.cons.injEq] at h2
      obtain ⟨rfl, -⟩ := h2
      exact absurd (by rw [h1]; simp) hnot

theorem flatMap_nodup {f : Finset ℕ → List ℕ} (hf : ∀ s x, x ∈ f s ↔ x ∈ s) (hn : ∀ s, (f s).Nodup) (gens : List (Finset ℕ)) (hd : gens.Pairwise Disjoint) :
    (gens.flatMap f).Nodup := by
  rw [List.nodup_flatMap]
  refine ⟨fun s _ => hn s, hd.imp fun {s t} hst => ?_⟩
  intro x hx hy
  exact Finset.disjoint_left.1 hst ((hf _ _).1 hx) ((hf _ _).1 hy)

/-- The generations, in any order inside each of them, are an order of measurement. -/
theorem generations_validOrder {sp : StdPattern} (hw : sp.WF) {gens : List (Finset ℕ)} (hg : IsGenerations sp.measNodes.toFinset sp.Depends gens)
    {f : Finset ℕ → List ℕ} (hf : ∀ s x, x ∈ f s ↔ x ∈ s) (hn : ∀ s, (f s).Nodup) : ValidOrder sp (gens.flatMap f) := by
  have hmem : ∀ n, n ∈ gens.flatMap f ↔ n ∈ sp.measNodes := by
    intro n
    rw [List.mem_flatMap, ← List.mem_toFinset, hg.cover]
    simp only [hf]
  refine ⟨?_, ?_⟩
  · exact (List.perm_ext_iff_of_nodup (flatMap_nodup hf hn gens hg.disjoint) hw.m_nodup).2 hmem
  · intro a n c h m hm hmn
    have hdep : ∀ k, k ∈ m.sDomain ∨ k ∈ m.tDomain → k ∈ a := by
      intro k hk
      have hdk : sp.Depends k n := ⟨m, hm, hmn, hk⟩
      have hkm : k ∈ sp.measNodes := by
        obtain ⟨pre, post, hpp⟩ := List.append_of_mem hm
        obtain ⟨h1, h2⟩ := hw.mo pre m post hpp
        have : k ∈ pre.map MCmd.node := hk.elim (h1 k) (h2 k)
        show k ∈ sp.mList.map MCmd.node
        rw [hpp, List.map_append]
        exact List.mem_append_left _ this
      have hkV : k ∈ sp.measNodes.toFinset := by simpa using hkm
      have hnV : n ∈ sp.measNodes.toFinset := by
        rw [List.mem_toFinset, ← hmn]; exact List.mem_map_of_mem hm
      obtain ⟨Lk, hLk, hkL⟩ := (hg.cover k).1 hkV
      obtain ⟨Ln, hLn, hnL⟩ := (hg.cover n).1 hnV
      obtain ⟨i, hi⟩ := List.mem_iff_getElem?.1 hLk
      obtain ⟨j, hj⟩ := List.mem_iff_getElem?.1 hLn
      exact flatMap_before hf hg.disjoint hi hj (hg.edges k n hkV hdk i j Lk Ln hi hj hkL hnL) hkL hnL h
    exact ⟨fun k hk => hdep k (.inl hk), fun k hk => hdep k (.inr hk)⟩

theorem measuredIn_eq_mCommands (l : List Command) : measuredIn l = (mCommands l).map MCmd.node := by
  unfold measuredIn mCommands
  rw [List.map_filterMap]
  congr 1
  funext c
  cases c <;> rfl

/-- The theorem on a pattern already in standard form. -/
theorem parallelize_standard {p : Pattern} (hp : p.OutputsOk) (hE : NoSelfLoop p.seq) (hs : p.isStandard false = true) {sp : StdPattern}
    (h : StdPattern.fromPattern p = .ok sp) (ho : p.outputs ≠ []) {ord : SetOrd} (hord : ord.Valid) {eo : GraphOrd} (heo : eo.Valid) :
    ∃ q gens, p.parallelize ord eo = .ok q ∧ q.checkRunnability = .ok () ∧ q.inputs = p.inputs ∧ q.outputs = p.outputs ∧
      (∀ r, OpPhaseEq (semCmds r p.seq) (semCmds r q.seq)) ∧ measuredIn q.seq = gens.flatMap (ord 20 0) ∧
      IsGenerations (measuredIn p.seq).toFinset sp.Depends gens := by
  have hw := fromPattern_wf hp hE h
  have hinv := fromPattern_inv hE h
  obtain ⟨hR, -, e1, e2⟩ := fromPattern_ok h
  have hrun : p.checkRunnability = .ok () := (checkRunnability_iff p).2 hR
  have hmL : sp.mList = mCommands p.seq := by
    obtain ⟨sp', h', hm⟩ := fromPattern_standard hrun hs
    rw [h] at h'; cases h'; exact hm
  obtain ⟨gens, hl, hg⟩ := C33_partial_order_layers p hp hE sp h ord hord
  have hg' : IsGenerations sp.measNodes.toFinset sp.Depends gens := by
    have : sp.measNodes = measuredIn p.seq := hinv.ml
    rw [this]; exact hg
  have hvo := generations_validOrder hw hg' (f := ord 20 0) (fun s x => (hord 20 0 s).2 x) (fun s => (hord 20 0 s).1)
  obtain ⟨sp', r1, r2, r3, r4, r5, r6, r7⟩ := C20_reorder sp hw _ hvo
  obtain ⟨q, hq⟩ := C19_succeeds sp' r2 (eo.nbr sp'.eSet) (heo sp'.eSet).2
  obtain ⟨q1, q2, q3, q4, -, q6, -⟩ := C19_to_space_optimal sp' r2 _ (heo sp'.eSet).2 q hq
  have hord' : p.measurementOrderDepth ord = .ok (gens.flatMap (ord 20 0)) := by
    unfold measurementOrderDepth
    rw [h]
    show (sp.partialOrderLayers ord >>= _) = _
    rw [hl, if_pos ho]
    show Except.ok _ = _
    simp
  have hsort : p.sortMeasurementCommands (gens.flatMap (ord 20 0)) = .ok sp'.mList := by
    have : ∀ order, p.sortMeasurementCommands order = order.mapM sp.lookupM := by
      intro order
      unfold sortMeasurementCommands StdPattern.lookupM StdPattern.mDict measurementCommands
      rw [hmL]
      rfl
    rw [this]
    unfold StdPattern.reorder at r1
    cases hm : (gens.flatMap (ord 20 0)).mapM sp.lookupM with
    | error e => rw [hm] at r1; cases r1
    | ok ms => rw [hm] at r1; cases r1; rfl
  have hsp' : { sp with mList := sp'.mList } = sp' := (reorder_ok hw.m_nodup r1).1.symm
  refine ⟨{ p with seq := q.seq }, gens, ?_, ?_, rfl, rfl, ?_, ?_, hg⟩
  · unfold parallelize
    rw [if_pos hs]
    show (p.measurementOrderDepth ord >>= _) = _
    rw [hord']
    show (p.sortMeasurementCommands (gens.flatMap (ord 20 0)) >>= _) = _
    rw [hsort]
    show p.reorderPattern sp'.mList eo = _
    unfold reorderPattern
    rw [h]
    show (StdPattern.toSpaceOptimalPattern { sp with mList := sp'.mList } (eo.nbr sp.eSet) >>= _) = _
    rw [hsp', ← r6, hq]
    rfl
  · rw [checkRunnability_iff] at q1 ⊢
    show Runnable p.inputs q.seq
    rw [q2, r4, e1] at q1
    exact q1
  · intro r
    obtain ⟨edges, hen⟩ := enumerates_exists sp.eSet
    refine (hinv.sem r).trans (OpPhaseEq.of_eq fun ψ => ?_)
    show _ = semCmds r q.seq ψ
    rw [q6 edges (by rw [r6]; exact hen) r ψ, r7 edges hen r ψ, semCmds_cmds sp edges hen]
  · show measuredIn q.seq = _
    rw [q4, r3]

theorem mCommands_cmds (sp : StdPattern) (edges : List (ℕ × ℕ)) : mCommands (sp.cmds edges) = sp.mList := by
  unfold StdPattern.cmds
  simp only [mCommands_append]
  rw [mCommands_nil_of (b := sp.nList.map _), mCommands_nil_of (b := edges.map _), mCommands_nil_of (b := sp.zDict.map _), mCommands_nil_of (b := sp.xDict.map _), mCommands_nil_of (b := sp.cDict.map _)]
  · simp only [List.nil_append, List.append_nil]
    unfold mCommands
    rw [List.filterMap_map]
    conv_rhs => rw [← List.filterMap_some (l := sp.mList)]
    rfl
  all_goals
    intro c hc
    obtain ⟨x, -, rfl⟩ := List.mem_map.1 hc
    simp [kindOf]

/-- **C55.** `parallelize_pattern` on a pattern with at least one output: for every iteration order of sets it succeeds, the result is
runnable, has the same inputs and outputs, does the same in every branch, and its measurements are grouped in the generations of
the dependencies of the standard form (each measurement is in the earliest possible group). -/
theorem C55_parallelize (p : Pattern) (hp : p.OutputsOk) (hE : NoSelfLoop p.seq) (sp : StdPattern) (h : StdPattern.fromPattern p = .ok sp) (ho : p.outputs ≠ [])
    (ord : SetOrd) (hord : ord.Valid) (eo : GraphOrd) (heo : eo.Valid) :
    ∃ q gens, p.parallelize ord eo = .ok q ∧ q.checkRunnability = .ok () ∧ q.inputs = p.inputs ∧ q.outputs = p.outputs ∧
      (∀ r, OpPhaseEq (semCmds r p.seq) (semCmds r q.seq)) ∧ measuredIn q.seq = gens.flatMap (ord 20 0) ∧
      IsGenerations (measuredIn p.seq).toFinset sp.Depends gens := by
  by_cases hs : p.isStandard false = true
  · exact parallelize_standard hp hE hs h ho hord heo
  · obtain ⟨p', hp'⟩ := C12_to_pattern_succeeds p hp hE sp h (eo.edges sp.eSet) (heo _).1
    have hres : StandardizeResult p p' := ⟨sp, h, _, (heo _).1, hp'⟩
    obtain ⟨c1, c2, c3, c4, c5, c6, -, c8⟩ := C12_standard_form p p' hp.inputs_nodup hE hres
    have hseq : p'.seq = sp.cmds (eo.edges sp.eSet) := (toPattern_ok hp').1
    have hs' : p'.isStandard false = true := isStandard_weaken c1
    have hok : p'.OutputsOk := by
      refine ⟨by rw [c3]; exact hp.inputs_nodup, by rw [c4]; exact hp.outputs_nodup, fun n => ?_⟩
      rw [c4, hp.outputs n]
      unfold Live
      rw [c5, c6]
    obtain ⟨sp', h', hm'⟩ := fromPattern_standard c2 hs'
    have hm : sp'.mList = sp.mList := by rw [hm', hseq, mCommands_cmds]
    obtain ⟨q, gens, q1, q2, q3, q4, q5, q6, q7⟩ := parallelize_standard hok c8 hs' h' (by rw [c4]; exact ho) hord heo
    refine ⟨q, gens, ?_, q2, by rw [q3, c3], by rw [q4, c4], fun r => ((C11_standardize p p' hE hres r).1).trans (q5 r), q6, ?_⟩
    · unfold parallelize at q1 ⊢
      rw [if_pos hs'] at q1
      rw [if_neg hs]
      unfold standardizeWith
      rw [h]
      show (sp.toPattern (eo.edges sp.eSet) >>= _) = _
      rw [hp']
      exact q1
    · have : sp'.Depends = sp.Depends := by
        funext u w
        unfold StdPattern.Depends
        rw [hm]
      rw [← this, ← c6]
      exact q7

/-! ### Without outputs -/

theorem measuredIn_append' (a b : List Command) : measuredIn (a ++ b) = measuredIn a ++ measuredIn b := List.filterMap_append

theorem foldlM_inv {α β : Type} {f : β → α → Except PyErr β} {g : β → List ℕ} {w : α → List ℕ} (hf : ∀ s a s', f s a = .ok s' → g s' = g s ++ w a) :
    ∀ (l : List α) (s s' : β), l.foldlM f s = .ok s' → g s' = g s ++ l.flatMap w := by
  intro l
  induction l with
  | nil => intro s s' h; cases h; simp
  | cons a l ih =>
    intro s s' h
    rw [List.foldlM_cons] at h
    obtain ⟨s1, h1, h2⟩ := (bind_ok_iff _ _ _).1 h
    rw [ih s1 s' h2, hf s a s1 h1]
    simp

theorem ensureActive_measured {nd : PyDict ℕ PlanarState} {st st' : OptState} {n : ℕ} (h : st.ensureActive nd n = .ok st') : measuredIn st'.seq = measuredIn st.seq := by
  unfold OptState.ensureActive at h
  split at h
  · cases h; rfl
  · split at h
    · cases h
    · cases h; rw [measuredIn_append']; simp [measuredIn, Command.measured?]

theorem ensureNeighborhood_measured {nd : PyDict ℕ PlanarState} {nbr : ℕ → List ℕ} {st st' : OptState} {n : ℕ} (h : st.ensureNeighborhood nd nbr n = .ok st') :
    measuredIn st'.seq = measuredIn st.seq := by
  unfold OptState.ensureNeighborhood at h
  obtain ⟨s1, h1, h2⟩ := (bind_ok_iff _ _ _).1 h
  have := foldlM_inv (g := fun s : OptState => measuredIn s.seq) (w := fun _ => []) (f := OptState.linkNeighbor nd n) (fun s a s' hs => by
    unfold OptState.linkNeighbor at hs
    split at hs
    · cases hs; simp
    · obtain ⟨s2, h3, h4⟩ := (bind_ok_iff _ _ _).1 hs
      cases h4
      simp only [List.append_nil]
      rw [measuredIn_append', ensureActive_measured h3]
      simp [measuredIn, Command.measured?]) _ _ _ h2
  have hnil : ∀ l : List ℕ, l.flatMap (fun _ => ([] : List ℕ)) = [] := fun l => by induction l <;> simp_all
  rw [hnil, List.append_nil] at this
  exact this.trans (ensureActive_measured h1)

theorem optSeq_measured {sp : StdPattern} {nbr : ℕ → List ℕ} {st : OptState} (h : sp.optSeq nbr = .ok st) : measuredIn st.seq = sp.mList.map MCmd.node := by
  unfold StdPattern.optSeq at h
  obtain ⟨s1, h1, h2⟩ := (bind_ok_iff _ _ _).1 h
  have a1 := foldlM_inv (g := fun s : OptState => measuredIn s.seq) (w := fun m : MCmd => [m.node]) (f := sp.optMeasure nbr) (fun s m s' hs => by
    unfold StdPattern.optMeasure at hs
    obtain ⟨s2, h3, h4⟩ := (bind_ok_iff _ _ _).1 hs
    cases h4
    simp only []
    rw [measuredIn_append', ensureNeighborhood_measured h3]
    rfl) _ _ _ h1
  have a2 := foldlM_inv (g := fun s : OptState => measuredIn s.seq) (w := fun _ => []) (f := sp.optOutput nbr) (fun s n s' hs => by
    unfold StdPattern.optOutput at hs
    obtain ⟨s2, h3, h4⟩ := (bind_ok_iff _ _ _).1 hs
    cases h4
    simp only []
    rw [measuredIn_append', ensureNeighborhood_measured h3]
    congr 1
    unfold StdPattern.optCorrections measuredIn
    simp only [List.filterMap_append]
    rw [List.append_eq_nil_iff, List.append_eq_nil_iff]
    refine ⟨⟨?_, ?_⟩, by split <;> rfl⟩
    · split
      · split <;> rfl
      · rfl
    · split
      · split <;> rfl
      · rfl) _ _ _ h2
  have hnil : ∀ l : List ℕ, l.flatMap (fun _ => ([] : List ℕ)) = [] := fun l => by induction l <;> simp_all
  have hmap : ∀ l : List MCmd, l.flatMap (fun m => [m.node]) = l.map MCmd.node := fun l => by induction l <;> simp_all
  rw [hnil, List.append_nil] at a2
  rw [hmap] at a1
  exact a2.trans a1

/-- The order of measurement that is computed for a pattern without outputs. -/
theorem parallelize_standard_nil {p : Pattern} (hp : p.OutputsOk) (hE : NoSelfLoop p.seq) (hs : p.isStandard false = true) {sp : StdPattern}
    (h : StdPattern.fromPattern p = .ok sp) (ho : p.outputs = []) {ord : SetOrd} (hord : ord.Valid) {eo : GraphOrd} {q : Pattern} (hq : p.parallelize ord eo = .ok q) :
    ∃ gens, measuredIn q.seq = gens.dropLast.flatMap (ord 20 0) ∧ IsGenerations (measuredIn p.seq).toFinset sp.Depends gens := by
  have hw := fromPattern_wf hp hE h
  have hinv := fromPattern_inv hE h
  obtain ⟨hR, -, e1, e2⟩ := fromPattern_ok h
  have hrun : p.checkRunnability = .ok () := (checkRunnability_iff p).2 hR
  have hmL : sp.mList = mCommands p.seq := by
    obtain ⟨sp', h', hm⟩ := fromPattern_standard hrun hs
    rw [h] at h'; cases h'; exact hm
  obtain ⟨gens, hl, hg⟩ := C33_partial_order_layers p hp hE sp h ord hord
  refine ⟨gens, ?_, hg⟩
  unfold parallelize at hq
  rw [if_pos hs] at hq
  obtain ⟨p1, h1, hq⟩ := (bind_ok_iff _ _ _).1 hq
  cases h1
  obtain ⟨order, h1, hq⟩ := (bind_ok_iff _ _ _).1 hq
  obtain ⟨ms, h2, hq⟩ := (bind_ok_iff _ _ _).1 hq
  have horder : order = gens.dropLast.flatMap (ord 20 0) := by
    unfold measurementOrderDepth at h1
    rw [h] at h1
    change (sp.partialOrderLayers ord >>= _) = _ at h1
    rw [hl, if_neg (by simp [ho])] at h1
    change Except.ok ((gens.reverse.drop 1).reverse.flatMap (ord 20 0)) = _ at h1
    cases h1
    congr 1
    rw [List.drop_one, List.tail_reverse, List.reverse_reverse]
  have hms : ms.map MCmd.node = order := by
    have : p.sortMeasurementCommands order = order.mapM sp.lookupM := by
      unfold sortMeasurementCommands StdPattern.lookupM StdPattern.mDict measurementCommands
      rw [hmL]
      rfl
    rw [this] at h2
    have hre : sp.reorder order = .ok { sp with mList := ms } := by
      unfold StdPattern.reorder
      rw [h2]; rfl
    exact (reorder_ok hw.m_nodup hre).2.1
  unfold reorderPattern at hq
  rw [h] at hq
  obtain ⟨sp2, h3, hq⟩ := (bind_ok_iff _ _ _).1 hq
  cases h3
  obtain ⟨new, h3, hq⟩ := (bind_ok_iff _ _ _).1 hq
  cases hq
  obtain ⟨st, h4, h5, -, -⟩ := toSpaceOptimal_ok h3
  show measuredIn new.seq = _
  rw [h5, optSeq_measured h4, ← horder, ← hms]

/-- **C55.** Without outputs the claim is false of the code: on every pattern that has measurements and no outputs, if
`parallelize_pattern` returns, then measurements are lost. -/
theorem C55_no_outputs (p : Pattern) (hp : p.OutputsOk) (hE : NoSelfLoop p.seq) (sp : StdPattern) (h : StdPattern.fromPattern p = .ok sp) (ho : p.outputs = [])
    (hm : measuredIn p.seq ≠ []) (ord : SetOrd) (hord : ord.Valid) (eo : GraphOrd) (heo : eo.Valid) (q : Pattern) (hq : p.parallelize ord eo = .ok q) :
    ∃ n ∈ measuredIn p.seq, n ∉ measuredIn q.seq := by
  have key : ∃ gens, measuredIn q.seq = gens.dropLast.flatMap (ord 20 0) ∧ ∃ R, IsGenerations (measuredIn p.seq).toFinset R gens := by
    by_cases hs : p.isStandard false = true
    · obtain ⟨g, h1, h2⟩ := parallelize_standard_nil hp hE hs h ho hord hq
      exact ⟨g, h1, _, h2⟩
    · obtain ⟨p', hp'⟩ := C12_to_pattern_succeeds p hp hE sp h (eo.edges sp.eSet) (heo _).1
      have hres : StandardizeResult p p' := ⟨sp, h, _, (heo _).1, hp'⟩
      obtain ⟨c1, c2, c3, c4, c5, c6, -, c8⟩ := C12_standard_form p p' hp.inputs_nodup hE hres
      have hs' : p'.isStandard false = true := isStandard_weaken c1
      have hok : p'.OutputsOk := by
        refine ⟨by rw [c3]; exact hp.inputs_nodup, by rw [c4]; exact hp.outputs_nodup, fun n => ?_⟩
        rw [c4, hp.outputs n]
        unfold Live
        rw [c5, c6]
      obtain ⟨sp', h', hm'⟩ := fromPattern_standard c2 hs'
      have hq' : p'.parallelize ord eo = .ok q := by
        unfold parallelize at hq ⊢
        rw [if_pos hs']
        rw [if_neg hs] at hq
        unfold standardizeWith at hq
        rw [h] at hq
        change (sp.toPattern (eo.edges sp.eSet) >>= _) = _ at hq
        rw [hp'] at hq
        exact hq
      obtain ⟨g, h1, h2⟩ := parallelize_standard_nil hok c8 hs' h' (by rw [c4]; exact ho) hord hq'
      rw [c6] at h2
      exact ⟨g, h1, _, h2⟩
  obtain ⟨gens, h1, R, hg⟩ := key
  have hne : gens ≠ [] := by
    rintro rfl
    obtain ⟨n, hn⟩ := List.exists_mem_of_ne_nil _ hm
    have := (hg.cover n).1 (by simpa using hn)
    simp at this
  have hgs : gens = gens.dropLast ++ [gens.getLast hne] := (List.dropLast_append_getLast hne).symm
  obtain ⟨n, hn⟩ := hg.nonempty (gens.getLast hne) (List.getLast_mem hne)
  refine ⟨n, ?_, ?_⟩
  · have := (hg.cover n).2 ⟨_, List.getLast_mem hne, hn⟩
    simpa using this
  · rw [h1, List.mem_flatMap]
    rintro ⟨L, hL, hnL⟩
    have hd := hg.disjoint
    rw [hgs, List.pairwise_append] at hd
    exact Finset.disjoint_left.1 (hd.2.2 L hL (gens.getLast hne) (by simp)) ((hord _ _ _).2 n |>.1 hnL) hn

/-! ### Examples -/

noncomputable def naturalGraphOrd : GraphOrd := ⟨fun E => E.toList.map Quot.out, fun E u => (E.toList.flatMap fun e => [(Quot.out e).1, (Quot.out e).2]).dedup.filter fun v => decide (s(u, v) ∈ E)⟩

theorem naturalGraphOrd_valid : naturalGraphOrd.Valid := by
  intro E
  have hq : ∀ e : Sym2 ℕ, s((Quot.out e).1, (Quot.out e).2) = e := fun e => Quot.out_eq e
  refine ⟨⟨?_, ?_⟩, fun u => ⟨?_, fun v => ?_⟩⟩
  · simp only [naturalGraphOrd, List.map_map]
    rw [show (fun e : ℕ × ℕ => s(e.1, e.2)) ∘ Quot.out = id from funext hq, List.map_id]
    exact E.nodup_toList
  · simp only [naturalGraphOrd, List.map_map]
    rw [show (fun e : ℕ × ℕ => s(e.1, e.2)) ∘ Quot.out = id from funext hq, List.map_id]
    exact E.toList_toFinset
  · exact (List.nodup_dedup _).filter _
  · simp only [naturalGraphOrd, List.mem_filter, List.mem_dedup, List.mem_flatMap, Finset.mem_toList, decide_eq_true_eq]
    refine ⟨fun h => h.2, fun h => ⟨⟨_, h, ?_⟩, h⟩⟩
    have : v ∈ s((Quot.out s(u, v)).1, (Quot.out s(u, v)).2) := by rw [hq]; simp
    rw [Sym2.mem_iff] at this
    simpa using this

/-- Four measurements (two of them independent of the others) and an output. -/
noncomputable def parExample : Pattern := (Pattern.empty []).extend
  [.N 0 .plus, .N 1 .plus, .E 0 1, .M 0 (.bloch ⟨1/4, .XY⟩) ∅ ∅, .X 1 {0}, .N 2 .plus, .E 1 2, .M 1 (.bloch ⟨1/4, .XY⟩) ∅ ∅, .X 2 {1}, .Z 2 {0},
   .N 3 .plus, .N 4 .plus, .E 3 4, .E 2 4, .M 3 (.bloch ⟨1/8, .XY⟩) ∅ ∅, .M 2 (.bloch ⟨1/3, .XY⟩) ∅ ∅, .X 4 {2}]

theorem parExample_runnable : parExample.checkRunnability = .ok () := rfl

theorem outputsOk_extend {inputs : List ℕ} (hi : inputs.Nodup) {l : List Command} (h : ((Pattern.empty inputs).extend l).checkRunnability = .ok ())
    (hs : ((Pattern.empty inputs).extend l).seq = l) (hin : ((Pattern.empty inputs).extend l).inputs = inputs) : ((Pattern.empty inputs).extend l).OutputsOk := by
  have hr := (checkRunnability_iff _).1 h
  rw [hs, hin] at hr
  have ho := C08_outputs inputs hi l hr
  refine ⟨by rw [hin]; exact hi, ?_, fun n => ?_⟩
  · rw [ho]; exact (hr.introduced_nodup hi).filter _
  · rw [ho, hs, hin]
    simp [Live, List.mem_filter]

theorem parExample_ok : parExample.OutputsOk ∧ NoSelfLoop parExample.seq ∧ parExample.outputs ≠ [] ∧ parExample.isStandard false = false := by
  refine ⟨outputsOk_extend (by decide) parExample_runnable rfl rfl, ?_, by decide, rfl⟩
  intro u v h
  have h' : Command.E u v ∈ [Command.N 0 .plus, .N 1 .plus, .E 0 1, .M 0 (.bloch ⟨1/4, .XY⟩) ∅ ∅, .X 1 {0}, .N 2 .plus, .E 1 2, .M 1 (.bloch ⟨1/4, .XY⟩) ∅ ∅, .X 2 {1}, .Z 2 {0},
   .N 3 .plus, .N 4 .plus, .E 3 4, .E 2 4, .M 3 (.bloch ⟨1/8, .XY⟩) ∅ ∅, .M 2 (.bloch ⟨1/3, .XY⟩) ∅ ∅, .X 4 {2}] := h
  simp at h'
  omega

/-- The theorem applies to the example. -/
example : ∃ q, parExample.parallelize exOrd naturalGraphOrd = .ok q ∧ ∀ r, OpPhaseEq (semCmds r parExample.seq) (semCmds r q.seq) := by
  obtain ⟨h1, h2, h3, -⟩ := parExample_ok
  obtain ⟨q, -, a, -, -, -, b, -⟩ := C55_parallelize parExample h1 h2 _ rfl h3 exOrd exOrd_valid naturalGraphOrd naturalGraphOrd_valid
  exact ⟨q, a, b⟩

/-- Two nodes measured one after the other, the second one with a correction. No output. -/
noncomputable def lossExample : Pattern := (Pattern.empty []).extend
  [.N 0 .plus, .N 1 .plus, .M 0 (.bloch ⟨1/4, .XY⟩) ∅ ∅, .M 1 (.bloch ⟨1/4, .XY⟩) {0} ∅]

theorem lossExample_runnable : lossExample.checkRunnability = .ok () := rfl

/-- An order of enumeration that computes on the empty set. -/
noncomputable def lossGraphOrd : GraphOrd := ⟨naturalGraphOrd.edges, fun E u => if E = ∅ then [] else naturalGraphOrd.nbr E u⟩

theorem lossGraphOrd_valid : lossGraphOrd.Valid := by
  intro E
  refine ⟨(naturalGraphOrd_valid E).1, fun u => ?_⟩
  show (if E = ∅ then [] else naturalGraphOrd.nbr E u).Nodup ∧ _
  by_cases h : E = ∅
  · subst h; simp [lossGraphOrd]
  · simp only [lossGraphOrd, if_neg h]; exact (naturalGraphOrd_valid E).2 u

/-- **C55.** The second measurement disappears from the pattern. -/
theorem C55_no_outputs_example : lossExample.checkRunnability = .ok () ∧ lossExample.OutputsOk ∧
    (lossExample.parallelize exOrd lossGraphOrd).map (fun q => measuredIn q.seq) = .ok [0] ∧ measuredIn lossExample.seq = [0, 1] := by
  refine ⟨rfl, outputsOk_extend (by decide) lossExample_runnable rfl rfl, ?_, rfl⟩
  rfl

end Pattern
end Graphix
