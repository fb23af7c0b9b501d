import Verif.Props.XZPattern

/-!
# C30: flow gives determinism
-/

namespace Graphix

/-- Squared norm of the state of the nodes `outs`: the probability of the branch, up to the normalisation of the input. -/
noncomputable def branchNorm (outs : Finset ℕ) (φ : QState) : ℝ :=
  ∑ S ∈ outs.powerset, Complex.normSq (φ fun n => decide (n ∈ S))

theorem PhaseEq.branchNorm_eq {φ χ : QState} (h : PhaseEq φ χ) (outs : Finset ℕ) : branchNorm outs φ = branchNorm outs χ := by
  obtain ⟨c, hc, rfl⟩ := h
  unfold branchNorm
  refine Finset.sum_congr rfl fun S _ => ?_
  rw [Pi.smul_apply, smul_eq_mul, Complex.normSq_mul, Complex.normSq_eq_norm_sq c, hc]; simp

/-- The nodes that the pattern prepares. -/
def Pattern.preparedNodes (p : Pattern) : Finset ℕ := (p.seq.filterMap Command.prepared?).toFinset

/-- The pattern implements the same map in all branches: two branches differ by a global phase, which does not depend on the
state of the inputs (entangled or not with other nodes that the pattern does not prepare); and all the branches have the
same probability. -/
def Deterministic (p : Pattern) : Prop :=
  ∀ r r' : ℕ → Bool, OpPhaseEqOn (Absent p.preparedNodes) (semCmds r p.seq) (semCmds r' p.seq) ∧
    ∀ ψ, OnNodes p.inputs ψ →
      branchNorm p.outputs.toFinset (semCmds r p.seq ψ) = branchNorm p.outputs.toFinset (semCmds r' p.seq ψ)

/-- `w` is among the nodes that the dictionary gives for `u`. -/
def InD (d : PyDict ℕ (Finset ℕ)) (u w : ℕ) : Prop := ∃ s, d.get? u = some s ∧ w ∈ s

theorem InD_setIfNonempty {d : PyDict ℕ (Finset ℕ)} {k : ℕ} (hk : k ∉ d.keys) (s : Finset ℕ) (u w : ℕ) :
    InD (Flow.setIfNonempty d k s) u w ↔ InD d u w ∨ (u = k ∧ w ∈ s) := by
  unfold InD Flow.setIfNonempty
  by_cases hs : s = ∅
  · subst hs; simp
  · rw [if_pos hs]
    simp only [PyDict.get?_set]
    have hn := (PyDict.get?_eq_none_iff d k).2 hk
    by_cases h : k = u
    · subst h; simp [hn]
    · simp [h, Ne.symm h]

theorem keys_setIfNonempty {d : PyDict ℕ (Finset ℕ)} {k : ℕ} {s : Finset ℕ} {n : ℕ}
    (h : n ∈ (Flow.setIfNonempty d k s).keys) : n ∈ d.keys ∨ n = k := by
  unfold Flow.setIfNonempty at h
  split at h
  · have := (PyDict.mem_keys_set d k s n).1 h
    tauto
  · exact Or.inl h

theorem resid_false {b : Bool} {P Q : Prop} (h : b = true ↔ ¬ (P ↔ P ∧ Q)) (hQ : Q) : b = false := by
  rw [← Bool.not_eq_true, h]; simp [hQ]

theorem resid_iff {b : Bool} {P Q : Prop} (h : b = true ↔ ¬ (P ↔ P ∧ Q)) (hQ : ¬ Q) : b = true ↔ P := by
  rw [h]; simp [hQ]

theorem xor_true_iff (a b : Bool) : (Bool.xor a b = true) ↔ ¬ a = b := by revert a b; decide

theorem deterministic_of {xz : XZCorrections} (hv : xz.og.Valid) (hloop : ∀ e ∈ xz.og.edges, e.1 ≠ e.2) {ord : SetOrd}
    (hord : ord.Valid) (hco : CorrectionsOk xz) (ht : xz.Targets) (p : ℕ → Finset ℕ)
    (hp : ∀ u ∈ xz.og.nodes, u ∉ xz.og.outputs → ∀ w ∈ p u, w ∈ xz.og.nodes ∧ w ∉ xz.og.inputs)
    (hflip : ∀ u ∈ xz.og.nodes, u ∉ xz.og.outputs → ∀ w l, xz.og.HasLabel w l → ∀ x z : Bool,
      (x = true ↔ ¬ (w ∈ p u ↔ InD xz.x u w)) → (z = true ↔ ¬ (xz.og.InOdd (p u) w ↔ InD xz.z u w)) → Flips l x z (decide (u = w)))
    (hout : ∀ u ∈ xz.og.nodes, u ∉ xz.og.outputs → ∀ w ∈ xz.og.outputs,
      (w ∈ p u ↔ InD xz.x u w) ∧ (xz.og.InOdd (p u) w ↔ InD xz.z u w)) :
    xz.checkWellFormed ord = .ok () ∧ xz.Targets ∧
    ∀ given, (∀ o, given = some o → xz.isCompatible o = .ok true) →
      ∃ q, xz.toPattern ord given = .ok q ∧ q.checkRunnability = .ok () ∧ q.OutputsOk ∧ q.inputs = xz.og.inputs ∧
        q.outputs = xz.og.outputs ∧ q.preparedNodes = xz.og.nodes \ xz.og.inputs.toFinset ∧ Deterministic q ∧
        (∀ r, OpPhaseEqOn (Absent q.preparedNodes) (semCmds r q.seq) xz.og.linMap) ∧
        ∀ n c, Command.C n c ∈ q.seq → (n, c) ∈ xz.og.cliffords := by
  have hwf := (C29_xzcorrections xz hv ord hord).2 hco
  refine ⟨hwf, ht, fun given hg => ?_⟩
  obtain ⟨q, h1, h2, h3, h4, -, hext, hook, ns, h5, hns, hnm⟩ := C31_to_pattern xz hv ord hord hwf ht given hg
  have hprep : q.preparedNodes = xz.og.nodes \ xz.og.inputs.toFinset := by
    have h6 : q.seq.filterMap Command.prepared? = ns := by
      have h7 : ∀ (L : List ℕ), (L.flatMap (blockOf xz.og.measOf (xz.xl ord) (xz.zl ord))).filterMap Command.prepared? = [] := by
        intro L
        rw [List.filterMap_eq_nil_iff]
        intro c hc
        obtain ⟨u, -, hc⟩ := List.mem_flatMap.1 hc
        unfold blockOf at hc
        rcases List.mem_cons.1 hc with rfl | hc
        · rfl
        · rcases List.mem_append.1 hc with hc | hc <;> obtain ⟨k, -, rfl⟩ := List.mem_map.1 hc <;> rfl
      rw [h5]
      unfold patternCmds
      rw [List.filterMap_append, List.filterMap_append, List.filterMap_append, h7, List.filterMap_map, List.filterMap_map,
        List.filterMap_map]
      have e1 : List.filterMap (Command.prepared? ∘ fun x => Command.N x PlanarState.plus) ns = ns := List.filterMap_some
      have e2 : List.filterMap (Command.prepared? ∘ fun e : ℕ × ℕ => Command.E e.1 e.2) xz.og.edges = [] := by
        rw [List.filterMap_eq_nil_iff]; intros; rfl
      have e3 : List.filterMap (Command.prepared? ∘ fun kv : ℕ × Clifford => Command.C kv.1 kv.2) xz.og.cliffords = [] := by
        rw [List.filterMap_eq_nil_iff]; intros; rfl
      rw [e1, e2, e3]; simp
    ext n
    rw [Pattern.preparedNodes, h6, List.mem_toFinset, hnm, Finset.mem_sdiff, List.mem_toFinset]
  have key : ∀ r, OpPhaseEqOn (Absent q.preparedNodes) (semCmds r q.seq) fun ψ => (locOps (fun w => if w ∈ measuredIn q.seq then bra (measVec (xz.og.measOf w) false) else
        accum r (xz.og.cliffords.map (fun kv => Command.C kv.1 kv.2)) w 1) (xz.og.nodes.sort (· ≤ ·))
        (czList xz.og.edges (prepList ns ψ))) := by
    intro r
    rw [hprep]
    have := determinism hv hloop (order := measuredIn q.seq) (ns := ns) hext.nodup hext.mem (meas := xz.og.measOf)
      (xl := xz.xl ord) (zl := xz.zl ord) (p := p)
      (fun u _ => corrected_nodup hord _ _ _ _) (fun u _ => corrected_nodup hord _ _ _ _)
      (fun u _ w hw => by obtain ⟨s, h1, h2⟩ := (corrected_mem hord _ _ _ _ _).1 hw; exact ht.1 u s w h1 h2)
      (fun u _ w hw => by obtain ⟨s, h1, h2⟩ := (corrected_mem hord _ _ _ _ _).1 hw; exact ht.2 u s w h1 h2)
      (later_of_ext hord hco ht hext)
      (fun u hu => hp u ((hext.mem u).1 hu).1 ((hext.mem u).1 hu).2) ?_ ?_ r
    · rw [show semCmds r q.seq = semCmds r (patternCmds ns xz.og xz.og.measOf (xz.xl ord) (xz.zl ord) (measuredIn q.seq))
        from congrArg (semCmds r) h5]
      exact this
    · intro u hu w hw
      have hwl : xz.og.HasLabel w (xz.og.measOf w).toPlaneOrAxis := by
        obtain ⟨l, m, hm, -⟩ := (OpenGraph.exists_label hv.post w).2 ((hext.mem w).1 hw)
        exact ⟨m, hm, by rw [OpenGraph.measOf, hm]; rfl⟩
      refine hflip u ((hext.mem u).1 hu).1 ((hext.mem u).1 hu).2 w _ hwl _ _ ?_ ?_
      · have := corrected_mem hord 3 u xz.x u w
        simp only [XZCorrections.xl, this]
        rw [xor_true_iff, decide_eq_decide]; rfl
      · have := corrected_mem hord 2 u xz.z u w
        simp only [XZCorrections.zl, this]
        rw [xor_true_iff, decide_eq_decide, OpenGraph.mem_oddSet]; rfl
    · intro u hu w hw
      have := hout u ((hext.mem u).1 hu).1 ((hext.mem u).1 hu).2 w hw
      unfold XZCorrections.xl XZCorrections.zl
      rw [corrected_mem hord, corrected_mem hord, OpenGraph.mem_oddSet]
      exact this
  have key' : ∀ r, OpPhaseEqOn (Absent q.preparedNodes) (semCmds r q.seq) xz.og.linMap := by
    intro r
    refine (key r).trans ⟨1, by simp, fun ψ _ => ?_⟩
    rw [linMap_eq hv hext.mem hns hnm, one_smul]
    simp only [accum_cliff_indep r (fun _ => false)]
  have hcl : ∀ n c, Command.C n c ∈ q.seq → (n, c) ∈ xz.og.cliffords := by
    intro n c hc
    rw [h5] at hc
    unfold patternCmds blockOf at hc
    simp only [List.mem_append, List.mem_map, List.mem_flatMap, List.mem_cons] at hc
    rcases hc with ⟨_, -, h⟩ | ⟨_, -, h⟩ | ⟨_, -, h | ⟨_, -, h⟩ | ⟨_, -, h⟩⟩ | ⟨kv, hkv, h⟩
    all_goals first | cases h; exact hkv | cases h
  refine ⟨q, h1, h2, hook, h3, h4, hprep, ?_, key', hcl⟩
  intro r r'
  have h6 := (key' r).trans (key' r').symm
  refine ⟨h6, fun ψ hψ => (h6.state (hψ.absent ?_)).branchNorm_eq _⟩
  intro n hn hn'
  rw [hprep, Finset.mem_sdiff, List.mem_toFinset, ← h3] at hn'
  exact hn'.2 hn

namespace Flow

/-- The correction set of a node (empty for the outputs). -/
def p (f : Flow) (u : ℕ) : Finset ℕ := (f.corr.get? u).getD ∅

theorem p_eq {f : Flow} {u : ℕ} {s : Finset ℕ} (h : f.corr.get? u = some s) : f.p u = s := by simp [p, h]

theorem p_sub {f : Flow} (hb : FlowBase f) (u : ℕ) : f.p u ⊆ f.og.nodes := by
  unfold p
  cases h : f.corr.get? u with
  | none => simp
  | some s => exact fun v hv => (hb.image u s v h hv).1

theorem gCorrections_ok {og : OpenGraph} (l : PyDict ℕ (Finset ℕ)) (hk : l.keys.Nodup)
    (hsub : ∀ u s, (u, s) ∈ l → s ⊆ og.nodes) (d : PyDict ℕ (Finset ℕ) × PyDict ℕ (Finset ℕ))
    (hd1 : ∀ u ∈ l.keys, u ∉ d.1.keys) (hd2 : ∀ u ∈ l.keys, u ∉ d.2.keys) :
    ∃ d', gCorrections og l d = .ok d' ∧
      (∀ u w, InD d'.1 u w ↔ InD d.1 u w ∨ ∃ s, (u, s) ∈ l ∧ w ∈ s ∧ w ≠ u) ∧
      (∀ u w, InD d'.2 u w ↔ InD d.2 u w ∨ ∃ s, (u, s) ∈ l ∧ w ∈ og.oddSet s ∧ w ≠ u) := by
  induction l generalizing d with
  | nil => exact ⟨d, rfl, by simp, by simp⟩
  | cons a l ih =>
    obtain ⟨n, c⟩ := a
    have hk' : n ∉ PyDict.keys l ∧ (PyDict.keys l).Nodup := by simpa [PyDict.keys] using hk
    have hn1 : n ∉ d.1.keys := hd1 n (by simp [PyDict.keys])
    have hn2 : n ∉ d.2.keys := hd2 n (by simp [PyDict.keys])
    have hkk : ∀ {e : PyDict ℕ (Finset ℕ)} {s : Finset ℕ}, (∀ u ∈ PyDict.keys l, u ∉ e.keys) →
        ∀ u ∈ PyDict.keys l, u ∉ (setIfNonempty e n s).keys := by
      intro e s h u hu hmem
      rcases keys_setIfNonempty hmem with h' | rfl
      · exact h u hu h'
      · exact hk'.1 hu
    obtain ⟨d', h1, h2, h3⟩ := ih hk'.2 (fun u s h => hsub u s (List.mem_cons_of_mem _ h))
      (setIfNonempty d.1 n (c \ {n}), setIfNonempty d.2 n (og.oddSet c \ {n}))
      (hkk fun u hu => hd1 u (by simp only [PyDict.keys, List.map_cons, List.mem_cons] at hu ⊢; exact Or.inr hu))
      (hkk fun u hu => hd2 u (by simp only [PyDict.keys, List.map_cons, List.mem_cons] at hu ⊢; exact Or.inr hu))
    refine ⟨d', ?_, ?_, ?_⟩
    · simp only [gCorrections, og.oddNeighbors_eq (hsub n c (by simp)), bind, Except.bind]
      exact h1
    · intro u w
      rw [h2, InD_setIfNonempty hn1]
      simp only [Finset.mem_sdiff, Finset.mem_singleton, List.mem_cons, Prod.mk.injEq]
      constructor
      · rintro ((h | ⟨rfl, h, h'⟩) | ⟨s, h⟩)
        · exact Or.inl h
        · exact Or.inr ⟨c, Or.inl ⟨rfl, rfl⟩, h, h'⟩
        · exact Or.inr ⟨s, Or.inr h.1, h.2⟩
      · rintro (h | ⟨s, ⟨rfl, rfl⟩ | h, h', h''⟩)
        · exact Or.inl (Or.inl h)
        · exact Or.inl (Or.inr ⟨rfl, h', h''⟩)
        · exact Or.inr ⟨s, h, h', h''⟩
    · intro u w
      rw [h3, InD_setIfNonempty hn2]
      simp only [Finset.mem_sdiff, Finset.mem_singleton, List.mem_cons, Prod.mk.injEq]
      constructor
      · rintro ((h | ⟨rfl, h, h'⟩) | ⟨s, h⟩)
        · exact Or.inl h
        · exact Or.inr ⟨c, Or.inl ⟨rfl, rfl⟩, h, h'⟩
        · exact Or.inr ⟨s, Or.inr h.1, h.2⟩
      · rintro (h | ⟨s, ⟨rfl, rfl⟩ | h, h', h''⟩)
        · exact Or.inl (Or.inl h)
        · exact Or.inl (Or.inr ⟨rfl, h', h''⟩)
        · exact Or.inr ⟨s, h, h', h''⟩

theorem cCorrections_ok {og : OpenGraph} (l : PyDict ℕ (Finset ℕ)) (hk : l.keys.Nodup)
    (hsub : ∀ u s, (u, s) ∈ l → s ⊆ og.nodes) (d : PyDict ℕ (Finset ℕ) × PyDict ℕ (Finset ℕ))
    (hd1 : ∀ u ∈ l.keys, u ∉ d.1.keys) (hd2 : ∀ u ∈ l.keys, u ∉ d.2.keys) :
    ∃ d', cCorrections og l d = .ok d' ∧
      (∀ u w, InD d'.1 u w ↔ InD d.1 u w ∨ ∃ s, (u, s) ∈ l ∧ w ∈ s) ∧
      (∀ u w, InD d'.2 u w ↔ InD d.2 u w ∨ ∃ s, (u, s) ∈ l ∧ w ∈ s.biUnion og.nbrs ∧ w ≠ u) := by
  induction l generalizing d with
  | nil => exact ⟨d, rfl, by simp, by simp⟩
  | cons a l ih =>
    obtain ⟨n, c⟩ := a
    have hk' : n ∉ PyDict.keys l ∧ (PyDict.keys l).Nodup := by simpa [PyDict.keys] using hk
    have hn1 : n ∉ d.1.keys := hd1 n (by simp [PyDict.keys])
    have hn2 : n ∉ d.2.keys := hd2 n (by simp [PyDict.keys])
    have hkk : ∀ {e : PyDict ℕ (Finset ℕ)} {s : Finset ℕ}, (∀ u ∈ PyDict.keys l, u ∉ e.keys) →
        ∀ u ∈ PyDict.keys l, u ∉ (setIfNonempty e n s).keys := by
      intro e s h u hu hmem
      rcases keys_setIfNonempty hmem with h' | rfl
      · exact h u hu h'
      · exact hk'.1 hu
    obtain ⟨d', h1, h2, h3⟩ := ih hk'.2 (fun u s h => hsub u s (List.mem_cons_of_mem _ h))
      (setIfNonempty d.1 n c, setIfNonempty d.2 n (c.biUnion og.nbrs \ {n}))
      (hkk fun u hu => hd1 u (by simp only [PyDict.keys, List.map_cons, List.mem_cons] at hu ⊢; exact Or.inr hu))
      (hkk fun u hu => hd2 u (by simp only [PyDict.keys, List.map_cons, List.mem_cons] at hu ⊢; exact Or.inr hu))
    refine ⟨d', ?_, ?_, ?_⟩
    · have hn : og.neighbors c = .ok (c.biUnion og.nbrs) := by
        unfold OpenGraph.neighbors; rw [if_pos (hsub n c (by simp))]
      simp only [cCorrections, hn, bind, Except.bind]
      exact h1
    · intro u w
      rw [h2, InD_setIfNonempty hn1]
      simp only [List.mem_cons, Prod.mk.injEq]
      constructor
      · rintro ((h | ⟨rfl, h⟩) | ⟨s, h⟩)
        · exact Or.inl h
        · exact Or.inr ⟨c, Or.inl ⟨rfl, rfl⟩, h⟩
        · exact Or.inr ⟨s, Or.inr h.1, h.2⟩
      · rintro (h | ⟨s, ⟨rfl, rfl⟩ | h, h'⟩)
        · exact Or.inl (Or.inl h)
        · exact Or.inl (Or.inr ⟨rfl, h'⟩)
        · exact Or.inr ⟨s, h, h'⟩
    · intro u w
      rw [h3, InD_setIfNonempty hn2]
      simp only [Finset.mem_sdiff, Finset.mem_singleton, List.mem_cons, Prod.mk.injEq]
      constructor
      · rintro ((h | ⟨rfl, h, h'⟩) | ⟨s, h⟩)
        · exact Or.inl h
        · exact Or.inr ⟨c, Or.inl ⟨rfl, rfl⟩, h, h'⟩
        · exact Or.inr ⟨s, Or.inr h.1, h.2⟩
      · rintro (h | ⟨s, ⟨rfl, rfl⟩ | h, h', h''⟩)
        · exact Or.inl (Or.inl h)
        · exact Or.inl (Or.inr ⟨rfl, h', h''⟩)
        · exact Or.inr ⟨s, h, h', h''⟩

theorem pauliCorrections_ok {f : Flow} (hsub : ∀ u, f.p u ⊆ f.og.nodes) (future : Finset ℕ) (l : List ℕ) (hl : l.Nodup)
    (d : PyDict ℕ (Finset ℕ) × PyDict ℕ (Finset ℕ)) (hd1 : ∀ u ∈ l, u ∉ d.1.keys) (hd2 : ∀ u ∈ l, u ∉ d.2.keys) :
    ∃ d', f.pauliCorrections future l d = .ok d' ∧
      (∀ u w, InD d'.1 u w ↔ InD d.1 u w ∨ (u ∈ l ∧ w ∈ f.p u ∧ w ∈ future)) ∧
      (∀ u w, InD d'.2 u w ↔ InD d.2 u w ∨ (u ∈ l ∧ w ∈ f.og.oddSet (f.p u) ∧ w ∈ future)) ∧
      (∀ u ∈ d'.1.keys, u ∈ d.1.keys ∨ u ∈ l) ∧ (∀ u ∈ d'.2.keys, u ∈ d.2.keys ∨ u ∈ l) := by
  induction l generalizing d with
  | nil => exact ⟨d, rfl, by simp, by simp, by simp, by simp⟩
  | cons n l ih =>
    rw [List.nodup_cons] at hl
    have hn1 : n ∉ d.1.keys := hd1 n (by simp)
    have hn2 : n ∉ d.2.keys := hd2 n (by simp)
    have hkk : ∀ {e : PyDict ℕ (Finset ℕ)} {s : Finset ℕ}, (∀ u ∈ l, u ∉ e.keys) →
        ∀ u ∈ l, u ∉ (setIfNonempty e n s).keys := by
      intro e s h u hu hmem
      rcases keys_setIfNonempty hmem with h' | rfl
      · exact h u hu h'
      · exact hl.1 hu
    obtain ⟨d', h1, h2, h3, h4, h5⟩ := ih hl.2
      (setIfNonempty d.1 n (f.p n ∩ future), setIfNonempty d.2 n (f.og.oddSet (f.p n) ∩ future))
      (hkk fun u hu => hd1 u (by simp [hu])) (hkk fun u hu => hd2 u (by simp [hu]))
    refine ⟨d', ?_, ?_, ?_, ?_, ?_⟩
    · have := f.og.oddNeighbors_eq (hsub n)
      unfold p at this
      simp only [pauliCorrections, this, bind, Except.bind]
      exact h1
    · intro u w
      rw [h2, InD_setIfNonempty hn1]
      simp only [Finset.mem_inter, List.mem_cons]
      constructor
      · rintro ((h | ⟨rfl, h⟩) | h)
        · exact Or.inl h
        · exact Or.inr ⟨Or.inl rfl, h⟩
        · exact Or.inr ⟨Or.inr h.1, h.2⟩
      · rintro (h | ⟨rfl | h, h'⟩)
        · exact Or.inl (Or.inl h)
        · exact Or.inl (Or.inr ⟨rfl, h'⟩)
        · exact Or.inr ⟨h, h'⟩
    · intro u w
      rw [h3, InD_setIfNonempty hn2]
      simp only [Finset.mem_inter, List.mem_cons]
      constructor
      · rintro ((h | ⟨rfl, h⟩) | h)
        · exact Or.inl h
        · exact Or.inr ⟨Or.inl rfl, h⟩
        · exact Or.inr ⟨Or.inr h.1, h.2⟩
      · rintro (h | ⟨rfl | h, h'⟩)
        · exact Or.inl (Or.inl h)
        · exact Or.inl (Or.inr ⟨rfl, h'⟩)
        · exact Or.inr ⟨h, h'⟩
    · intro u hu
      rcases h4 u hu with h | h
      · rcases keys_setIfNonempty h with h | rfl
        · exact Or.inl h
        · exact Or.inr (by simp)
      · exact Or.inr (by simp [h])
    · intro u hu
      rcases h5 u hu with h | h
      · rcases keys_setIfNonempty h with h | rfl
        · exact Or.inl h
        · exact Or.inr (by simp)
      · exact Or.inr (by simp [h])

theorem pauliCorrectionsLayers_ok {f : Flow} (hsub : ∀ u, f.p u ⊆ f.og.nodes) (ord : SetOrd) (hord : ord.Valid)
    (ls : List (Finset ℕ)) (hdis : ls.Pairwise Disjoint) (future : Finset ℕ)
    (d : PyDict ℕ (Finset ℕ) × PyDict ℕ (Finset ℕ)) (hd1 : ∀ u ∈ unionL ls, u ∉ d.1.keys)
    (hd2 : ∀ u ∈ unionL ls, u ∉ d.2.keys) :
    ∃ d', f.pauliCorrectionsLayers ord ls future d = .ok d' ∧
      (∀ u w, InD d'.1 u w ↔ InD d.1 u w ∨ ∃ (i : ℕ) (L : Finset ℕ), ls[i]? = some L ∧ u ∈ L ∧ w ∈ f.p u ∧
        w ∈ future ∪ unionL (ls.take i)) ∧
      (∀ u w, InD d'.2 u w ↔ InD d.2 u w ∨ ∃ (i : ℕ) (L : Finset ℕ), ls[i]? = some L ∧ u ∈ L ∧ w ∈ f.og.oddSet (f.p u) ∧
        w ∈ future ∪ unionL (ls.take i)) := by
  induction ls generalizing future d with
  | nil => exact ⟨d, rfl, by simp, by simp⟩
  | cons L ls ih =>
    rw [List.pairwise_cons] at hdis
    obtain ⟨d1, h1, h2, h3, h4, h5⟩ := pauliCorrections_ok hsub future (ord 8 0 L) (hord _ _ _).1 d
      (fun u hu => hd1 u (by simp [((hord _ _ _).2 u).1 hu])) (fun u hu => hd2 u (by simp [((hord _ _ _).2 u).1 hu]))
    have hL : ∀ u ∈ unionL ls, u ∉ L := by
      intro u hu huL
      obtain ⟨K, hK, huK⟩ := mem_unionL.1 hu
      exact Finset.disjoint_left.1 (hdis.1 K hK) huL huK
    obtain ⟨d', h6, h7, h8⟩ := ih hdis.2 (future ∪ L) d1
      (fun u hu hm => by
        rcases h4 u hm with h | h
        · exact hd1 u (by simp [hu]) h
        · exact hL u hu (((hord _ _ _).2 u).1 h))
      (fun u hu hm => by
        rcases h5 u hm with h | h
        · exact hd2 u (by simp [hu]) h
        · exact hL u hu (((hord _ _ _).2 u).1 h))
    refine ⟨d', ?_, ?_, ?_⟩
    · simp only [pauliCorrectionsLayers, h1, bind, Except.bind]; exact h6
    · intro u w
      rw [h7, h2, (hord _ _ _).2]
      constructor
      · rintro ((h | h) | ⟨i, K, hK, hu, hw, hf⟩)
        · exact Or.inl h
        · exact Or.inr ⟨0, L, by simp, h.1, h.2.1, by simp [h.2.2]⟩
        · exact Or.inr ⟨i + 1, K, by simpa using hK, hu, hw, by simpa [or_assoc] using hf⟩
      · rintro (h | ⟨i, K, hK, hu, hw, hf⟩)
        · exact Or.inl (Or.inl h)
        · cases i with
          | zero => simp at hK; subst hK; exact Or.inl (Or.inr ⟨hu, hw, by simpa using hf⟩)
          | succ i => exact Or.inr ⟨i, K, by simpa using hK, hu, hw, by simpa [or_assoc] using hf⟩
    · intro u w
      rw [h8, h3, (hord _ _ _).2]
      constructor
      · rintro ((h | h) | ⟨i, K, hK, hu, hw, hf⟩)
        · exact Or.inl h
        · exact Or.inr ⟨0, L, by simp, h.1, h.2.1, by simp [h.2.2]⟩
        · exact Or.inr ⟨i + 1, K, by simpa using hK, hu, hw, by simpa [or_assoc] using hf⟩
      · rintro (h | ⟨i, K, hK, hu, hw, hf⟩)
        · exact Or.inl (Or.inl h)
        · cases i with
          | zero => simp at hK; subst hK; exact Or.inl (Or.inr ⟨hu, hw, by simpa using hf⟩)
          | succ i => exact Or.inr ⟨i, K, by simpa using hK, hu, hw, by simpa [or_assoc] using hf⟩

theorem toXZPauli_ok {f : Flow} (hb : FlowBase f) (ord : SetOrd) (hord : ord.Valid) :
    ∃ xz, f.toXZPauli ord = .ok xz ∧ xz.og = f.og ∧ xz.layers = f.layers ∧
      (∀ u w, InD xz.x u w ↔ w ∈ f.p u ∧ Before f.layers u w) ∧
      (∀ u w, InD xz.z u w ↔ f.og.InOdd (f.p u) w ∧ Before f.layers u w) := by
  obtain ⟨d, h1, h2, h3⟩ := pauliCorrectionsLayers_ok (f := f) (p_sub hb) ord hord f.layers hb.layers.disjoint ∅ ([], [])
    (by simp [PyDict.keys]) (by simp [PyDict.keys])
  have key : ∀ (u w : ℕ) (P : Prop), (InD [] u w ∨ ∃ (i : ℕ) (L : Finset ℕ), f.layers[i]? = some L ∧ u ∈ L ∧ P ∧
        w ∈ ∅ ∪ unionL (f.layers.take i)) ↔ P ∧ Before f.layers u w := by
    intro u w P
    constructor
    · rintro (⟨s, h, -⟩ | ⟨i, L, hL, hu, hP, hw⟩)
      · simp at h
      · rw [Finset.empty_union, mem_unionL] at hw
        obtain ⟨K, hK, hwK⟩ := hw
        obtain ⟨j, hj⟩ := List.mem_iff_getElem?.1 hK
        have hlt : j < i := by
          by_contra hge
          rw [List.getElem?_take, if_neg (by omega)] at hj; simp at hj
        rw [List.getElem?_take, if_pos hlt] at hj
        exact ⟨hP, i, j, L, K, hL, hj, hlt, hu, hwK⟩
    · rintro ⟨hP, i, j, L, K, hL, hj, hlt, hu, hwK⟩
      refine Or.inr ⟨i, L, hL, hu, hP, ?_⟩
      rw [Finset.empty_union, mem_unionL]
      exact ⟨K, List.mem_of_getElem? (i := j) (by rw [List.getElem?_take, if_pos hlt, hj]), hwK⟩
  refine ⟨⟨f.og, d.1, d.2, f.layers⟩, ?_, rfl, rfl, ?_, ?_⟩
  · simp only [toXZPauli, h1, bind, Except.bind, pure, Except.pure]
  · intro u w; rw [← key u w]; exact h2 u w
  · intro u w; rw [← key u w, ← OpenGraph.mem_oddSet]; exact h3 u w

theorem mem_iff_p {f : Flow} (hk : f.corr.keys.Nodup) (u : ℕ) (Q : Finset ℕ → Prop) (hQ : ¬ Q ∅) :
    (∃ s, (u, s) ∈ f.corr ∧ Q s) ↔ Q (f.p u) := by
  constructor
  · rintro ⟨s, h, hq⟩; rw [p_eq (PyDict.get?_of_mem hk h)]; exact hq
  · intro h
    unfold p at h
    cases hg : f.corr.get? u with
    | none => rw [hg] at h; exact absurd h hQ
    | some s => rw [hg] at h; exact ⟨s, PyDict.mem_of_get? hg, h⟩

theorem toXZG_ok {f : Flow} (hb : FlowBase f) (hk : f.corr.keys.Nodup) :
    ∃ xz, f.toXZG = .ok xz ∧ xz.og = f.og ∧ xz.layers = f.layers ∧
      (∀ u w, InD xz.x u w ↔ w ∈ f.p u ∧ w ≠ u) ∧ (∀ u w, InD xz.z u w ↔ f.og.InOdd (f.p u) w ∧ w ≠ u) := by
  obtain ⟨d, h1, h2, h3⟩ := gCorrections_ok (og := f.og) f.corr hk
    (fun u s h v hv => (hb.image u s v (PyDict.get?_of_mem hk h) hv).1) ([], []) (by simp [PyDict.keys]) (by simp [PyDict.keys])
  refine ⟨⟨f.og, d.1, d.2, f.layers⟩, ?_, rfl, rfl, ?_, ?_⟩
  · simp only [toXZG, h1, bind, Except.bind, pure, Except.pure]
  · intro u w
    show InD d.1 u w ↔ _
    rw [h2, ← mem_iff_p hk u (fun s => w ∈ s ∧ w ≠ u) (by simp)]
    simp [InD]
  · intro u w
    show InD d.2 u w ↔ _
    rw [h3, ← OpenGraph.mem_oddSet, ← mem_iff_p hk u (fun s => w ∈ f.og.oddSet s ∧ w ≠ u) (by simp [OpenGraph.oddSet])]
    simp [InD]

theorem toXZC_ok {f : Flow} (hb : FlowBase f) (hk : f.corr.keys.Nodup) :
    ∃ xz, f.toXZC = .ok xz ∧ xz.og = f.og ∧ xz.layers = f.layers ∧
      (∀ u w, InD xz.x u w ↔ w ∈ f.p u) ∧ (∀ u w, InD xz.z u w ↔ (∃ v ∈ f.p u, f.og.Adj w v) ∧ w ≠ u) := by
  obtain ⟨d, h1, h2, h3⟩ := cCorrections_ok (og := f.og) f.corr hk
    (fun u s h v hv => (hb.image u s v (PyDict.get?_of_mem hk h) hv).1) ([], []) (by simp [PyDict.keys]) (by simp [PyDict.keys])
  refine ⟨⟨f.og, d.1, d.2, f.layers⟩, ?_, rfl, rfl, ?_, ?_⟩
  · simp only [toXZC, h1, bind, Except.bind, pure, Except.pure]
  · intro u w
    show InD d.1 u w ↔ _
    rw [h2, ← mem_iff_p hk u (fun s => w ∈ s) (by simp)]
    simp [InD]
  · intro u w
    show InD d.2 u w ↔ _
    rw [h3, ← mem_biUnion_nbrs, ← mem_iff_p hk u (fun s => w ∈ s.biUnion f.og.nbrs ∧ w ≠ u) (by simp)]
    simp [InD]

end Flow

theorem CorrectionsOk.of_inD {xz : XZCorrections} (hl : LayersOk xz.og xz.layers)
    (hx : ∀ u w, InD xz.x u w → w ∈ xz.og.nodes ∧ Before xz.layers u w)
    (hz : ∀ u w, InD xz.z u w → w ∈ xz.og.nodes ∧ Before xz.layers u w)
    (hd : ∀ u, (∃ s, xz.x.get? u = some s) ∨ (∃ s, xz.z.get? u = some s) → u ∈ xz.og.nodes ∧ u ∉ xz.og.outputs) :
    CorrectionsOk xz ∧ xz.Targets :=
  ⟨⟨hd, hl, fun u s v h hv _ => (hx u v ⟨s, h, hv⟩).2, fun u s v h hv _ => (hz u v ⟨s, h, hv⟩).2⟩,
    fun u s v h hv => (hx u v ⟨s, h, hv⟩).1, fun u s v h hv => (hz u v ⟨s, h, hv⟩).1⟩

/-- The values of the dictionary are non-empty. -/
def NonemptyVals (d : PyDict ℕ (Finset ℕ)) : Prop := ∀ u s, d.get? u = some s → s.Nonempty

theorem NonemptyVals.setIfNonempty {d : PyDict ℕ (Finset ℕ)} (h : NonemptyVals d) (k : ℕ) (s : Finset ℕ) :
    NonemptyVals (Flow.setIfNonempty d k s) := by
  unfold Flow.setIfNonempty
  split
  · rename_i hs
    intro u t ht
    rw [PyDict.get?_set] at ht
    split at ht
    · rw [← Option.some.inj ht]; exact Finset.nonempty_iff_ne_empty.2 hs
    · exact h u t ht
  · exact h

theorem gCorrections_nonempty {og : OpenGraph} (l : PyDict ℕ (Finset ℕ)) (d d' : PyDict ℕ (Finset ℕ) × PyDict ℕ (Finset ℕ))
    (h : Flow.gCorrections og l d = .ok d') (h1 : NonemptyVals d.1) (h2 : NonemptyVals d.2) :
    NonemptyVals d'.1 ∧ NonemptyVals d'.2 := by
  induction l generalizing d with
  | nil => simp only [Flow.gCorrections, Except.ok.injEq] at h; subst h; exact ⟨h1, h2⟩
  | cons a l ih =>
    obtain ⟨n, c⟩ := a
    unfold Flow.gCorrections at h
    obtain ⟨o, -, h⟩ := (bind_ok_iff _ _ _).1 h
    exact ih _ h (h1.setIfNonempty _ _) (h2.setIfNonempty _ _)

theorem cCorrections_nonempty {og : OpenGraph} (l : PyDict ℕ (Finset ℕ)) (d d' : PyDict ℕ (Finset ℕ) × PyDict ℕ (Finset ℕ))
    (h : Flow.cCorrections og l d = .ok d') (h1 : NonemptyVals d.1) (h2 : NonemptyVals d.2) :
    NonemptyVals d'.1 ∧ NonemptyVals d'.2 := by
  induction l generalizing d with
  | nil => simp only [Flow.cCorrections, Except.ok.injEq] at h; subst h; exact ⟨h1, h2⟩
  | cons a l ih =>
    obtain ⟨n, c⟩ := a
    unfold Flow.cCorrections at h
    obtain ⟨o, -, h⟩ := (bind_ok_iff _ _ _).1 h
    exact ih _ h (h1.setIfNonempty _ _) (h2.setIfNonempty _ _)

theorem pauliCorrections_nonempty {f : Flow} {future : Finset ℕ} (l : List ℕ) (d d' : PyDict ℕ (Finset ℕ) × PyDict ℕ (Finset ℕ))
    (h : f.pauliCorrections future l d = .ok d') (h1 : NonemptyVals d.1) (h2 : NonemptyVals d.2) :
    NonemptyVals d'.1 ∧ NonemptyVals d'.2 := by
  induction l generalizing d with
  | nil => simp only [Flow.pauliCorrections, Except.ok.injEq] at h; subst h; exact ⟨h1, h2⟩
  | cons a l ih =>
    unfold Flow.pauliCorrections at h
    obtain ⟨o, -, h⟩ := (bind_ok_iff _ _ _).1 h
    exact ih _ h (h1.setIfNonempty _ _) (h2.setIfNonempty _ _)

theorem pauliCorrectionsLayers_nonempty {f : Flow} {ord : SetOrd} (ls : List (Finset ℕ)) (future : Finset ℕ)
    (d d' : PyDict ℕ (Finset ℕ) × PyDict ℕ (Finset ℕ))
    (h : f.pauliCorrectionsLayers ord ls future d = .ok d') (h1 : NonemptyVals d.1) (h2 : NonemptyVals d.2) :
    NonemptyVals d'.1 ∧ NonemptyVals d'.2 := by
  induction ls generalizing d future with
  | nil => simp only [Flow.pauliCorrectionsLayers, Except.ok.injEq] at h; subst h; exact ⟨h1, h2⟩
  | cons a l ih =>
    unfold Flow.pauliCorrectionsLayers at h
    obtain ⟨o, ho, h⟩ := (bind_ok_iff _ _ _).1 h
    obtain ⟨g1, g2⟩ := pauliCorrections_nonempty _ _ _ ho h1 h2
    exact ih _ _ h g1 g2

theorem nonemptyVals_nil : NonemptyVals [] := fun u s h => by simp at h

theorem toXZ_nonempty {f : Flow} {ord : SetOrd} {xz : XZCorrections}
    (h : f.toXZPauli ord = .ok xz ∨ f.toXZG = .ok xz ∨ f.toXZC = .ok xz) : NonemptyVals xz.x ∧ NonemptyVals xz.z := by
  rcases h with h | h | h
  · unfold Flow.toXZPauli at h
    obtain ⟨d, hd, h⟩ := (bind_ok_iff _ _ _).1 h
    have h' : xz = ⟨f.og, d.1, d.2, f.layers⟩ := (Except.ok.inj h).symm
    subst h'
    exact pauliCorrectionsLayers_nonempty _ _ _ _ hd nonemptyVals_nil nonemptyVals_nil
  · unfold Flow.toXZG at h
    obtain ⟨d, hd, h⟩ := (bind_ok_iff _ _ _).1 h
    have h' : xz = ⟨f.og, d.1, d.2, f.layers⟩ := (Except.ok.inj h).symm
    subst h'
    exact gCorrections_nonempty _ _ _ hd nonemptyVals_nil nonemptyVals_nil
  · unfold Flow.toXZC at h
    obtain ⟨d, hd, h⟩ := (bind_ok_iff _ _ _).1 h
    have h' : xz = ⟨f.og, d.1, d.2, f.layers⟩ := (Except.ok.inj h).symm
    subst h'
    exact cCorrections_nonempty _ _ _ hd nonemptyVals_nil nonemptyVals_nil

theorem before_irrefl {layers : List (Finset ℕ)} (hd : layers.Pairwise Disjoint) (u : ℕ) : ¬ Before layers u u := by
  rintro ⟨i, j, K, L, hK, hL, hlt, hu, hu'⟩
  have := index_unique hd hK hL hu hu'
  omega

/-- From the relations of the corrections to well-formedness. -/
theorem corrections_of {f : Flow} (hb : FlowBase f) {xz : XZCorrections} (hog : xz.og = f.og) (hl : xz.layers = f.layers)
    (hne : NonemptyVals xz.x ∧ NonemptyVals xz.z)
    (hx : ∀ u w, InD xz.x u w → w ∈ f.og.nodes ∧ Before f.layers u w ∧ ∃ s, f.corr.get? u = some s)
    (hz : ∀ u w, InD xz.z u w → w ∈ f.og.nodes ∧ Before f.layers u w ∧ ∃ s, f.corr.get? u = some s) :
    CorrectionsOk xz ∧ xz.Targets := by
  refine CorrectionsOk.of_inD (by rw [hog, hl]; exact hb.layers) ?_ ?_ ?_
  · intro u w h; rw [hog, hl]; exact ⟨(hx u w h).1, (hx u w h).2.1⟩
  · intro u w h; rw [hog, hl]; exact ⟨(hz u w h).1, (hz u w h).2.1⟩
  · intro u h
    rw [hog]
    rcases h with ⟨s, h⟩ | ⟨s, h⟩
    · obtain ⟨w, hw⟩ := hne.1 u s h
      exact (hb.domain u).1 (hx u w ⟨s, h, hw⟩).2.2
    · obtain ⟨w, hw⟩ := hne.2 u s h
      exact (hb.domain u).1 (hz u w ⟨s, h, hw⟩).2.2

theorem some_of_mem_p {f : Flow} {u w : ℕ} (h : w ∈ f.p u) : f.corr.get? u = some (f.p u) := by
  unfold Flow.p at *
  cases hg : f.corr.get? u with
  | none => rw [hg] at h; simp at h
  | some s => simp

theorem some_of_odd_p {f : Flow} {u w : ℕ} (h : f.og.InOdd (f.p u) w) : f.corr.get? u = some (f.p u) := by
  obtain ⟨v, hv⟩ := Finset.card_pos.1 h.pos
  exact some_of_mem_p (Finset.mem_filter.1 hv).1

/-- What the pattern obtained from an open graph must satisfy: it is runnable, has the inputs and outputs of the open graph and
prepares its other nodes, it is deterministic, and in every branch it implements the map of the open graph
(`OpenGraph.linMap`), up to a global phase that does not depend on the state. -/
def Implements (q : Pattern) (og : OpenGraph) : Prop :=
  q.checkRunnability = .ok () ∧ q.OutputsOk ∧ q.inputs = og.inputs ∧ q.outputs = og.outputs ∧
    q.preparedNodes = og.nodes \ og.inputs.toFinset ∧ Deterministic q ∧
    (∀ r, OpPhaseEqOn (Absent q.preparedNodes) (semCmds r q.seq) og.linMap) ∧
    ∀ n c, Command.C n c ∈ q.seq → (n, c) ∈ og.cliffords

/-- What the conclusion of the three theorems says of the corrections: they are well formed and on nodes of the graph, and for every compatible
measurement order (or none) the pattern implements the open graph. -/
def GivesDeterminism (xz : XZCorrections) (ord : SetOrd) : Prop :=
  xz.checkWellFormed ord = .ok () ∧ xz.Targets ∧
    ∀ given, (∀ o, given = some o → xz.isCompatible o = .ok true) →
      ∃ q, xz.toPattern ord given = .ok q ∧ Implements q xz.og

theorem C30_gflow (f : Flow) (hv : f.og.Valid) (hloop : ∀ e ∈ f.og.edges, e.1 ≠ e.2) (hk : f.corr.keys.Nodup)
    (ord : SetOrd) (hord : ord.Valid) (h : f.checkG ord = .ok ()) :
    ∃ xz, f.toXZG = .ok xz ∧ xz.og = f.og ∧ GivesDeterminism xz ord := by
  have hf := (C29_gflow f hv hk ord hord).1 h
  have hb := hf.toFlowBase
  obtain ⟨xz, h1, h2, h3, h4, h5⟩ := Flow.toXZG_ok hb hk
  obtain ⟨hco, ht⟩ := corrections_of hb h2 h3 (toXZ_nonempty (ord := ord) (Or.inr (Or.inl h1)))
    (fun u w hw => by
      obtain ⟨hw, hne⟩ := (h4 u w).1 hw
      have hs := some_of_mem_p hw
      exact ⟨f.p_sub hb u hw, hf.g1 u _ hs w hw hne, _, hs⟩)
    (fun u w hw => by
      obtain ⟨hw, hne⟩ := (h5 u w).1 hw
      have hs := some_of_odd_p hw
      have hn := hw.mem_nodes hv.edge_mem
      exact ⟨hn, hf.g2 u _ hs w hn hw hne, _, hs⟩)
  refine ⟨xz, h1, h2, ?_⟩
  have hs : ∀ u ∈ f.og.nodes, u ∉ f.og.outputs → f.corr.get? u = some (f.p u) := by
    intro u hu hu'
    obtain ⟨s, hs⟩ := (hb.domain u).2 ⟨hu, hu'⟩
    rw [Flow.p_eq hs]; exact hs
  refine deterministic_of (by rw [h2]; exact hv) (by rw [h2]; exact hloop) hord hco ht f.p ?_ ?_ ?_
  · rw [h2]; exact fun u hu hu' w hw => hb.image u _ w (hs u hu hu') hw
  · rw [h2]
    intro u hu hu' w l hwl x z hx hz
    rw [h4] at hx; rw [h5] at hz
    by_cases huw : w = u
    · subst huw
      have hx' : x = true ↔ w ∈ f.p w := resid_iff hx (by simp)
      have hz' : z = true ↔ f.og.InOdd (f.p w) w := resid_iff hz (by simp)
      obtain ⟨p, hp⟩ := hf.planes w hu hu'
      have hlp := OpenGraph.HasLabel.unique hwl hp
      subst hlp
      simp only [decide_true]
      cases p with
      | XY => obtain ⟨a, b⟩ := hf.g3 w _ (hs w hu hu') hp; exact ⟨by simpa using (not_congr hx').2 a, hz'.2 b⟩
      | XZ => obtain ⟨a, b⟩ := hf.g4 w _ (hs w hu hu') hp; exact ⟨hx'.2 a, hz'.2 b⟩
      | YZ => obtain ⟨a, b⟩ := hf.g5 w _ (hs w hu hu') hp; exact ⟨hx'.2 a, by simpa using (not_congr hz').2 b⟩
    · have hx' : x = false := resid_false hx huw
      have hz' : z = false := resid_false hz huw
      rw [hx', hz', decide_eq_false (Ne.symm huw)]
      exact Flips.zero l
  · rw [h2]
    intro u hu hu' w hw
    rw [h4, h5]
    have : w ≠ u := fun e => hu' (e ▸ hw)
    simp [this]

theorem C30_causalflow (f : Flow) (hv : f.og.Valid) (hloop : ∀ e ∈ f.og.edges, e.1 ≠ e.2) (hk : f.corr.keys.Nodup)
    (ord : SetOrd) (hord : ord.Valid) (h : f.checkC ord = .ok ()) :
    ∃ xz, f.toXZC = .ok xz ∧ xz.og = f.og ∧ GivesDeterminism xz ord := by
  have hf := (C29_causalflow f hv hk ord hord).1 h
  have hb := hf.toFlowBase
  obtain ⟨xz, h1, h2, h3, h4, h5⟩ := Flow.toXZC_ok hb hk
  have hsing : ∀ u, f.corr.get? u = some (f.p u) → ∃ w, f.p u = {w} ∧ f.og.Adj u w ∧ Before f.layers u w ∧
      ∀ v, f.og.Adj v w → v ≠ u → v ∈ f.og.nodes → Before f.layers u v := fun u hu => hf.single u _ hu
  obtain ⟨hco, ht⟩ := corrections_of hb h2 h3 (toXZ_nonempty (ord := ord) (Or.inr (Or.inr h1)))
    (fun u w hw => by
      have hw := (h4 u w).1 hw
      have hs := some_of_mem_p hw
      obtain ⟨w', he, -, hbf, -⟩ := hsing u hs
      rw [he, Finset.mem_singleton] at hw
      subst hw
      exact ⟨f.p_sub hb u (by rw [he]; simp), hbf, _, hs⟩)
    (fun u w hw => by
      obtain ⟨⟨v, hvp, hadj⟩, hne⟩ := (h5 u w).1 hw
      have hs := some_of_mem_p hvp
      obtain ⟨w', he, -, -, hall⟩ := hsing u hs
      rw [he, Finset.mem_singleton] at hvp
      subst hvp
      have hn : w ∈ f.og.nodes := hadj.mem_nodes hv.edge_mem
      exact ⟨hn, hall w hadj hne hn, _, hs⟩)
  refine ⟨xz, h1, h2, ?_⟩
  have hs : ∀ u ∈ f.og.nodes, u ∉ f.og.outputs → f.corr.get? u = some (f.p u) := by
    intro u hu hu'
    obtain ⟨s, hs⟩ := (hb.domain u).2 ⟨hu, hu'⟩
    rw [Flow.p_eq hs]; exact hs
  have hodd : ∀ u, f.corr.get? u = some (f.p u) → ∀ w, (∃ v ∈ f.p u, f.og.Adj w v) ↔ f.og.InOdd (f.p u) w := by
    intro u hu w
    obtain ⟨w', he, -⟩ := hsing u hu
    unfold OpenGraph.InOdd
    rw [he, Finset.filter_singleton]
    by_cases ha : f.og.Adj w w'
    · simp [ha]
    · simp [ha]
  refine deterministic_of (by rw [h2]; exact hv) (by rw [h2]; exact hloop) hord hco ht f.p ?_ ?_ ?_
  · rw [h2]; exact fun u hu hu' w hw => hb.image u _ w (hs u hu hu') hw
  · rw [h2]
    intro u hu hu' w l hwl x z hx hz
    rw [h4] at hx; rw [h5, hodd u (hs u hu hu')] at hz
    have hx' : x = false := by rw [← Bool.not_eq_true, hx]; simp
    by_cases huw : w = u
    · subst huw
      have hz' : z = true ↔ f.og.InOdd (f.p w) w := resid_iff hz (by simp)
      have hlp := OpenGraph.HasLabel.unique hwl (hf.xy w hu hu')
      subst hlp
      simp only [decide_true]
      obtain ⟨v, he, hadj, -⟩ := hsing w (hs w hu hu')
      exact ⟨hx', hz'.2 ((hodd w (hs w hu hu') w).1 ⟨v, by simp [he], hadj⟩)⟩
    · have hz' : z = false := resid_false hz huw
      rw [hx', hz', decide_eq_false (Ne.symm huw)]
      exact Flips.zero l
  · rw [h2]
    intro u hu hu' w hw
    rw [h4, h5, hodd u (hs u hu hu')]
    have : w ≠ u := fun e => hu' (e ▸ hw)
    simp [this]

/-- Corrections that are, for the nodes that come after, those of a Pauli flow. -/
theorem determinism_of_pauliflow {f : Flow} (hv : f.og.Valid) (hloop : ∀ e ∈ f.og.edges, e.1 ≠ e.2) {ord : SetOrd} (hord : ord.Valid)
    (hf : IsPauliFlow f) {xz : XZCorrections} (h2 : xz.og = f.og) (hco : CorrectionsOk xz) (ht : xz.Targets)
    (h4 : ∀ u w, InD xz.x u w ↔ w ∈ f.p u ∧ Before f.layers u w)
    (h5 : ∀ u w, InD xz.z u w ↔ f.og.InOdd (f.p u) w ∧ Before f.layers u w) : GivesDeterminism xz ord := by
  have hb := hf.toFlowBase
  have hs : ∀ u ∈ f.og.nodes, u ∉ f.og.outputs → f.corr.get? u = some (f.p u) := by
    intro u hu hu'
    obtain ⟨s, hs⟩ := (hb.domain u).2 ⟨hu, hu'⟩
    rw [Flow.p_eq hs]; exact hs
  refine deterministic_of (by rw [h2]; exact hv) (by rw [h2]; exact hloop) hord hco ht f.p ?_ ?_ ?_
  · rw [h2]; exact fun u hu hu' w hw => hb.image u _ w (hs u hu hu') hw
  · rw [h2]
    intro u hu hu' w l hwl x z hx hz
    rw [h4] at hx; rw [h5] at hz
    have hsu := hs u hu hu'
    by_cases huw : w = u
    · subst huw
      have hir := before_irrefl hb.layers.disjoint w
      have hx' : x = true ↔ w ∈ f.p w := resid_iff hx hir
      have hz' : z = true ↔ f.og.InOdd (f.p w) w := resid_iff hz hir
      simp only [decide_true]
      cases l with
      | plane p =>
        cases p with
        | XY => obtain ⟨a, b⟩ := hf.p4 w _ hsu hwl; exact ⟨by simpa using (not_congr hx').2 a, hz'.2 b⟩
        | XZ => obtain ⟨a, b⟩ := hf.p5 w _ hsu hwl; exact ⟨hx'.2 a, hz'.2 b⟩
        | YZ => obtain ⟨a, b⟩ := hf.p6 w _ hsu hwl; exact ⟨hx'.2 a, by simpa using (not_congr hz').2 b⟩
      | axis a =>
        cases a with
        | X => exact hz'.2 (hf.p7 w _ hsu hwl)
        | Y =>
          have := hf.p9 w _ hsu hwl
          show Bool.xor x z = true
          rw [xor_true_iff]
          intro e
          have h9 : (w ∈ f.p w ↔ f.og.InOdd (f.p w) w) := by rw [← hx', ← hz', e]
          rw [h9] at this
          exact iff_not_self this
        | Z => exact hx'.2 (hf.p8 w _ hsu hwl)
    · rw [decide_eq_false (Ne.symm huw)]
      by_cases hbf : Before f.layers u w
      · have hx' : x = false := resid_false hx hbf
        have hz' : z = false := resid_false hz hbf
        rw [hx', hz']; exact Flips.zero l
      · have hx' : x = true ↔ w ∈ f.p u := resid_iff hx hbf
        have hz' : z = true ↔ f.og.InOdd (f.p u) w := resid_iff hz hbf
        have hlab : ∀ l', l ≠ l' → ¬ f.og.HasLabel w l' := fun l' hne h' => hne (OpenGraph.HasLabel.unique hwl h')
        have hwn : ∀ {s}, f.og.InOdd s w → w ∈ f.og.nodes := fun h' => h'.mem_nodes hv.edge_mem
        have q1 : l ≠ .axis .X → l ≠ .axis .Y → x = false := by
          intro n1 n2
          rw [← Bool.not_eq_true, hx']
          exact fun hm => hbf (hf.p1 u _ hsu w hm huw (hlab _ n1) (hlab _ n2))
        have q2 : l ≠ .axis .Y → l ≠ .axis .Z → z = false := by
          intro n1 n2
          rw [← Bool.not_eq_true, hz']
          exact fun hm => hbf (hf.p2 u _ hsu w (hwn hm) hm huw (hlab _ n1) (hlab _ n2))
        cases l with
        | plane p =>
          have a := q1 (by simp) (by simp)
          have b := q2 (by simp) (by simp)
          rw [a, b]; exact Flips.zero _
        | axis a =>
          cases a with
          | X => exact q2 (by simp) (by simp)
          | Y =>
            have := hf.p3 u _ hsu w huw hwl hbf
            show Bool.xor x z = false
            rw [← Bool.not_eq_true, xor_true_iff, not_not]
            rw [← hx', ← hz'] at this
            exact Bool.eq_iff_iff.2 this
          | Z => exact q1 (by simp) (by simp)
  · rw [h2]
    intro u hu hu' w hw
    rw [h4, h5]
    have := hb.layers.outputs_after hu hu' hw
    simp [this]

theorem C30_pauliflow (f : Flow) (hv : f.og.Valid) (hloop : ∀ e ∈ f.og.edges, e.1 ≠ e.2) (hk : f.corr.keys.Nodup)
    (ord : SetOrd) (hord : ord.Valid) (h : f.checkPauli ord = .ok ()) :
    ∃ xz, f.toXZPauli ord = .ok xz ∧ xz.og = f.og ∧ GivesDeterminism xz ord := by
  have hf := (C29_pauliflow f hv hk ord hord).1 h
  have hb := hf.toFlowBase
  obtain ⟨xz, h1, h2, h3, h4, h5⟩ := Flow.toXZPauli_ok hb ord hord
  obtain ⟨hco, ht⟩ := corrections_of hb h2 h3 (toXZ_nonempty (ord := ord) (Or.inl h1))
    (fun u w hw => by
      obtain ⟨hw, hbf⟩ := (h4 u w).1 hw
      exact ⟨f.p_sub hb u hw, hbf, _, some_of_mem_p hw⟩)
    (fun u w hw => by
      obtain ⟨hw, hbf⟩ := (h5 u w).1 hw
      exact ⟨hw.mem_nodes hv.edge_mem, hbf, _, some_of_odd_p hw⟩)
  exact ⟨xz, h1, h2, determinism_of_pauliflow hv hloop hord hf h2 hco ht h4 h5⟩

/-! Non-vacuity: the three theorems apply to flows on a path, and the conclusion gives a pattern. -/

theorem exOg_loop (l) : ∀ e ∈ (exOg l).edges, e.1 ≠ e.2 := by simp [exOg]

example : ∃ xz, exFlowP.toXZPauli exOrd = .ok xz ∧ xz.og = exFlowP.og ∧ GivesDeterminism xz exOrd :=
  C30_pauliflow exFlowP (exOg_valid _) (exOg_loop _) (by simp [exFlowP, PyDict.keys]) exOrd exOrd_valid rfl

example : ∃ xz, (exFlow exLabels).toXZG = .ok xz ∧ xz.og = exOg exLabels ∧ GivesDeterminism xz exOrd :=
  C30_gflow (exFlow exLabels) (exOg_valid _) (exOg_loop _) (by simp [exFlow, PyDict.keys]) exOrd exOrd_valid rfl

example : ∃ xz, (exFlow exLabels).toXZC = .ok xz ∧ xz.og = exOg exLabels ∧ GivesDeterminism xz exOrd :=
  C30_causalflow (exFlow exLabels) (exOg_valid _) (exOg_loop _) (by simp [exFlow, PyDict.keys]) exOrd exOrd_valid rfl

/-- Some input states are on the inputs of the pattern, and are not zero. -/
example : ∃ ψ : QState, OnNodes [0] ψ ∧ ψ ≠ 0 :=
  ⟨fun b => if b 0 then 1 else 0, fun b b' h => by simp only [h 0 (by simp)], fun h => by
    have := congrFun h (fun _ => true); simp at this⟩

/-- A measurement whose outcome is not corrected. -/
def exNotDet : Pattern := { inputs := [0], outputs := [], nNode := 1, seq := [.M 0 (.pauli ⟨.Z, .plus⟩) ∅ ∅] }

/-- `Deterministic` does not hold of every pattern. -/
example : ¬ Deterministic exNotDet := by
  intro h
  obtain ⟨⟨c, -, h⟩, -⟩ := h (fun _ => false) (fun _ => true)
  have h := h (fun b => if b 0 then 0 else 1) (OnNodes.absent (l := [0]) (fun b b' h => by simp only [h 0 (by simp)])
    (by simp [Pattern.preparedNodes, exNotDet, Command.prepared?]))
  have := congrFun h (fun _ => false)
  simp [exNotDet, semCmds, Command.sem, projOut, measVec, parity_empty, powB, op1, Measurement.toBloch,
    PauliMeasurement.toBloch, planarState, -Matrix.one_apply] at this
  simp [Matrix.one_apply] at this

end Graphix
