import Verif.Proofs.PathPattern
import Verif.Props.Compose
import Verif.Proofs.Signals

/-!
# Proofs about `remove_local_clifford_commands`
-/

namespace Graphix

open Function

theorem Absent.mono {s s' : Finset ℕ} {ψ : QState} (h : Absent s' ψ) (hs : s ⊆ s') : Absent s ψ :=
  fun b b' hb => h b b' fun n hn => hb n fun h' => hn (hs h')

theorem absent_union {s s' : Finset ℕ} {ψ : QState} (h : Absent s ψ) (h' : Absent s' ψ) : Absent (s ∪ s') ψ := by
  intro b b' hb
  have : ψ b = ψ fun n => if n ∈ s then b' n else b n := by
    apply h
    intro n hn
    simp [hn]
  rw [this]
  apply h'
  intro n hn
  by_cases hs : n ∈ s
  · simp [hs]
  · simp only [hs, if_false]
    exact hb n (by simp [hs, hn])

theorem Absent.op1 {s : Finset ℕ} {ψ : QState} (h : Absent s ψ) (U : Mat2) {n : ℕ} (hn : n ∉ s) : Absent s (Graphix.op1 U n ψ) := by
  intro b b' hb
  unfold Graphix.op1
  have : ∀ x, ψ (update b n x) = ψ (update b' n x) := by
    intro x
    apply h
    intro k hk
    by_cases hkn : k = n
    · subst hkn; simp
    · rw [update_of_ne hkn, update_of_ne hkn, hb k hk]
  rw [hb n hn, this, this]

theorem Absent.projOut {s : Finset ℕ} {ψ : QState} (h : Absent s ψ) (v : Bool → ℂ) {n : ℕ} (hn : n ∉ s) : Absent s (Graphix.projOut n v ψ) := by
  intro b b' hb
  unfold Graphix.projOut
  have : ∀ x, ψ (update b n x) = ψ (update b' n x) := by
    intro x
    apply h
    intro k hk
    by_cases hkn : k = n
    · subst hkn; simp
    · rw [update_of_ne hkn, update_of_ne hkn, hb k hk]
  rw [this, this]

/-- Commands that do not mention some nodes do not create them. -/
theorem Absent.sem {s : Finset ℕ} {ψ : QState} (h : Absent s ψ) (r : ℕ → Bool) (c : Command) (hc : ∀ k ∈ c.mentions, k ∉ s) :
    Absent s (c.sem r ψ) := by
  cases c with
  | N n st =>
    intro b b' hb
    show st.vec (b n) * ψ b = st.vec (b' n) * ψ b'
    rw [h b b' hb, hb n (hc n (by simp [Command.mentions]))]
  | M n m t u =>
    have hn := hc n (by simp [Command.mentions])
    exact ((h.op1 _ hn).op1 _ hn).projOut _ hn
  | E u v =>
    intro b b' hb
    show (if b u && b v then -1 else 1) * ψ b = (if b' u && b' v then -1 else 1) * ψ b'
    rw [h b b' hb, hb u (hc u (by simp [Command.mentions])), hb v (hc v (by simp [Command.mentions]))]
  | C n c => exact h.op1 _ (hc n (by simp [Command.mentions]))
  | X n d => exact h.op1 _ (hc n (by simp [Command.mentions]))
  | Z n d => exact h.op1 _ (hc n (by simp [Command.mentions]))
  | S n d => exact h
  | T => exact h

theorem Absent.semCmds {s : Finset ℕ} {ψ : QState} (h : Absent s ψ) (r : ℕ → Bool) (l : List Command)
    (hl : ∀ c ∈ l, ∀ k ∈ c.mentions, k ∉ s) : Absent s (Graphix.semCmds r l ψ) := by
  induction l generalizing ψ with
  | nil => exact h
  | cons c l ih => exact ih (h.sem r c (hl c (by simp))) fun c hc => hl c (by simp [hc])

/-- The pattern of a Clifford gate. -/
theorem clifford_pattern (c : Clifford) (ord : SetOrd) (hord : ord.Valid) (mmo : MulOrd) (hmmo : mmo.Valid) :
    ∃ cp len, c.toOpenGraph.toPattern ord mmo = .ok cp ∧ cp.checkRunnability = .ok () ∧ cp.OutputsOk ∧ cp.inputs = [0] ∧
      cp.outputs = [len] ∧ cp.preparedNodes = Finset.Icc 1 len ∧ (c ≠ Clifford.I → 1 ≤ len) ∧ (∀ n g, Command.C n g ∉ cp.seq) ∧
      len = (lookup cliffordPauliDecomposition c []).length ∧
      ∀ r, OpPhaseEqOn (Absent (Finset.Icc 1 len)) (semCmds r cp.seq) fun ψ =>
        (1 / (Real.sqrt 2 : ℂ)) ^ len • ren (Equiv.swap 0 len) (op1 c.matrix 0 ψ) := by
  obtain ⟨k1, k2, -, k4⟩ := decomposition_check c
  have k1 : (lookup cliffordPauliDecomposition c []).length ≤ 3 := k1
  have k2 : ∀ m ∈ lookup cliffordPauliDecomposition c [], m.1 ≠ .Z := k2
  have k4 : lookup cliffordPauliDecomposition c [] = [] → c = Clifford.I := k4
  obtain ⟨d, hd, hpm⟩ := pathMat_clifford c
  set ms := lookup cliffordPauliDecomposition c [] with hms
  rcases C53_to_pattern (pathOpenGraph ms) (path_valid ms) (path_loop ms) ord hord mmo hmmo with ⟨-, q, h1, h2⟩ | ⟨h, -⟩
  · obtain ⟨q1, q2, q3, q4, q5, -, q6, q7⟩ := h2
    have hprep : q.preparedNodes = Finset.Icc 1 ms.length := by
      rw [q5]; ext n; simp [pathOpenGraph]; omega
    refine ⟨q, ms.length, h1, q1, q2, q3, q4, hprep, ?_, ?_, rfl, ?_⟩
    · intro hc
      by_contra hlt
      exact hc (k4 (List.length_eq_zero_iff.1 (by omega)))
    · intro n g hg
      have := q7 n g hg
      simp [pathOpenGraph] at this
    · intro r
      obtain ⟨e, he, h⟩ := q6 r
      rw [hprep] at h
      refine ⟨e * d, by rw [norm_mul, he, hd, one_mul], fun ψ hψ => ?_⟩
      rw [h ψ hψ, path_linMap ms k1 hψ, hpm, op1_mat_smul]
      funext b
      simp only [ren, Pi.smul_apply, smul_eq_mul]
      ring
  · exact absurd (path_flow k2) h

theorem exists_perm_extension (f : ℕ → ℕ) (S : Finset ℕ) (hf : ∀ a ∈ S, ∀ b ∈ S, f a = f b → a = b) :
    ∃ g : Equiv.Perm ℕ, ∀ k ∈ S, g k = f k := by
  induction S using Finset.induction_on with
  | empty => exact ⟨1, by simp⟩
  | insert a S ha ih =>
    obtain ⟨g, hg⟩ := ih fun x hx y hy => hf x (by simp [hx]) y (by simp [hy])
    refine ⟨Equiv.swap (g a) (f a) * g, fun k hk => ?_⟩
    rcases Finset.mem_insert.1 hk with rfl | hk
    · simp
    · rw [Equiv.Perm.mul_apply, Equiv.swap_apply_of_ne_of_ne, hg k hk]
      · intro h; exact ha (g.injective h ▸ hk)
      · rw [hg k hk]; intro h
        exact ha (hf k (by simp [hk]) a (by simp) h ▸ hk)

theorem ren_comp_fun (f g : ℕ → ℕ) (ψ : QState) : ren f (ren g ψ) = ren (f ∘ g) ψ := rfl

theorem ren_smul_fun (f : ℕ → ℕ) (c : ℂ) (ψ : QState) : ren f (c • ψ) = c • ren f ψ := rfl

/-- The renaming of the pattern of a Clifford gate. -/
def cliffordRename (a M : ℕ) : ℕ → ℕ := fun node => if node = 0 then a else node + M

theorem cliffordRename_inj {a M : ℕ} (ha : a ≤ M) (x y : ℕ) (h : cliffordRename a M x = cliffordRename a M y) : x = y := by
  unfold cliffordRename at h
  split at h <;> split at h <;> omega

/-- What the renamed pattern of a Clifford gate does. -/
theorem clifford_block (c : Clifford) (cp : Pattern) (len : ℕ) (hr : Runnable [0] cp.seq) (hin : cp.inputs = [0])
    (hprep : cp.preparedNodes = Finset.Icc 1 len) (hlen : 1 ≤ len)
    (hsem : ∀ r, OpPhaseEqOn (Absent (Finset.Icc 1 len)) (semCmds r cp.seq) fun ψ =>
        (1 / (Real.sqrt 2 : ℂ)) ^ len • ren (Equiv.swap 0 len) (op1 c.matrix 0 ψ)) {a M : ℕ} (ha : a ≤ M) (r : ℕ → Bool) :
    OpPhaseEqOn (Absent (Finset.Ioc M (M + len))) (semCmds r (cp.seq.map (Command.reindex (cliffordRename a M)))) fun χ =>
      (1 / (Real.sqrt 2 : ℂ)) ^ len • ren (Equiv.swap a (M + len)) (op1 c.matrix a χ) := by
  obtain ⟨h, hh⟩ := exists_perm_extension (cliffordRename a M) (Finset.range (len + 1)) fun x _ y _ e =>
    cliffordRename_inj ha x y e
  have hint : ∀ k ∈ introduced [0] cp.seq, k ∈ Finset.range (len + 1) := by
    intro k hk
    rcases List.mem_append.1 hk with hk | hk
    · simp at hk; simp [hk]
    · have : k ∈ cp.preparedNodes := by simpa [Pattern.preparedNodes] using hk
      rw [hprep] at this
      simp at this ⊢; omega
  have h0 : h 0 = a := by rw [hh 0 (by simp)]; simp [cliffordRename]
  have hl : h len = M + len := by
    rw [hh len (by simp)]; simp only [cliffordRename]; rw [if_neg (by omega)]; omega
  obtain ⟨e, he, hs⟩ := hsem (r ∘ h)
  refine ⟨e, he, fun χ hχ => ?_⟩
  have h1 : χ = ren h (ren h.symm χ) := by
    rw [ren_comp_fun]; funext b; simp [ren]
  have habs : Absent (Finset.Icc 1 len) (ren h.symm χ) := by
    intro b b' hb
    apply hχ
    intro n hn
    show b (h.symm n) = b' (h.symm n)
    apply hb
    intro hm
    apply hn
    have : h (h.symm n) = cliffordRename a M (h.symm n) := hh _ (by simp at hm ⊢; omega)
    rw [Equiv.apply_symm_apply] at this
    simp at hm
    unfold cliffordRename at this
    rw [if_neg (by omega)] at this
    simp; omega
  conv_lhs => rw [h1]
  rw [semCmds_reindex h.injective _ (fun c hc k hk => (hh k (hint k (hr.mentions_introduced c hc k hk))).symm), hs _ habs]
  have h2 : op1 c.matrix 0 (ren h.symm χ) = ren h.symm (op1 c.matrix a χ) := by
    have := op1_ren h.symm.injective c.matrix a χ
    rwa [← h0, Equiv.symm_apply_apply, h0] at this
  beta_reduce
  rw [h2, ren_smul_fun, ren_smul_fun, ren_comp_fun, ren_comp_fun]
  have h3 : (⇑h ∘ ⇑(Equiv.swap 0 len) ∘ ⇑h.symm) = ⇑(Equiv.swap a (M + len)) := by
    rw [← h0, ← hl]
    funext n
    simp only [Function.comp_apply]
    have := Equiv.swap_apply_apply h 0 len
    rw [this]
    rfl
  rw [← h3]
  rfl

/-- The nodes that a sequence of commands prepares. -/
abbrev prepOf (l : List Command) : Finset ℕ := (l.filterMap Command.prepared?).toFinset

/-- The invariant of the loop: after the commands `pre`, the node `n` is called `g n`. -/
structure RCInv (I : List ℕ) (M0 : ℕ) (pre : List Command) (st : RemoveClifford) (g : Equiv.Perm ℕ) (k : ℕ) : Prop where
  le : M0 ≤ st.maxNode
  ext : st.pattern = (Pattern.empty I).extend st.pattern.seq
  map : ∀ n ≤ M0, Pattern.applyMapping st.mapping n = g n
  bnd : ∀ n ≤ st.maxNode, g n ≤ st.maxNode
  fix : ∀ n, st.maxNode < n → g n = n
  fresh : ∀ n ≤ M0, n ∉ introduced I pre → g n = n
  run : Runnable I st.pattern.seq
  intr : ∀ m, m ∈ introduced I st.pattern.seq ↔ m ∈ introduced I pre ∨ M0 < m ∧ m ≤ st.maxNode
  live : ∀ m, Live I st.pattern.seq m ↔ ∃ n, Live I pre n ∧ g n = m
  meas : ∀ n ∈ measuredIn pre, g n ∈ measuredIn st.pattern.seq
  noC : ∀ n c, Command.C n c ∉ st.pattern.seq
  sem : ∀ r, OpPhaseEqOn (Absent (prepOf st.pattern.seq)) (semCmds r st.pattern.seq) fun ψ =>
    (1 / (Real.sqrt 2 : ℂ)) ^ k • ren g (semCmds (r ∘ g) pre ψ)

theorem Pattern.add_seq (p : Pattern) (c : Command) : (p.add c).seq = p.seq ++ [c] := by cases c <;> rfl

theorem live_snoc (I : List ℕ) (l : List Command) (c : Command) (m : ℕ) :
    Live I (l ++ [c]) m ↔ (m ∈ introduced I l ∨ c.prepared? = some m) ∧ m ∉ measuredIn l ∧ c.measured? ≠ some m := by
  unfold Live
  rw [introduced_append, measuredIn_append]
  cases hp : c.prepared? <;> cases hm : c.measured? <;> simp [hp, hm, measuredIn, eq_comm]

theorem mem_introduced_snoc (I : List ℕ) (l : List Command) (c : Command) (m : ℕ) :
    m ∈ introduced I (l ++ [c]) ↔ m ∈ introduced I l ∨ c.prepared? = some m := by
  rw [introduced_append]
  cases hp : c.prepared? <;> simp [hp, eq_comm]

theorem mem_measuredIn_snoc (l : List Command) (c : Command) (m : ℕ) :
    m ∈ measuredIn (l ++ [c]) ↔ m ∈ measuredIn l ∨ c.measured? = some m := by
  rw [measuredIn_append]
  cases hp : c.measured? <;> simp [hp, measuredIn, eq_comm]

theorem prepared_reindex1 (f : ℕ → ℕ) (c : Command) : (c.reindex f).prepared? = c.prepared?.map f := by cases c <;> rfl

theorem measured_reindex1 (f : ℕ → ℕ) (c : Command) : (c.reindex f).measured? = c.measured?.map f := by cases c <;> rfl

/-- One step of the loop, for a command that is not `C`. -/
theorem RCInv.step {I : List ℕ} {M0 : ℕ} {pre : List Command} {st : RemoveClifford} {g : Equiv.Perm ℕ} {k : ℕ}
    (h : RCInv I M0 pre st g k) {c : Command} (hc : ∀ n q, c ≠ .C n q) (hr : Runnable I (pre ++ [c]))
    (hM : ∀ n ∈ introduced I (pre ++ [c]), n ≤ M0) :
    RCInv I M0 (pre ++ [c]) { st with pattern := st.pattern.add (c.reindex (Pattern.applyMapping st.mapping)) } g k := by
  set f := Pattern.applyMapping st.mapping with hf
  have hseq : (st.pattern.add (c.reindex f)).seq = st.pattern.seq ++ [c.reindex f] := Pattern.add_seq _ _
  have hfm : ∀ n ≤ M0, f n = g n := h.map
  have ha := hr.last
  have hM' : ∀ n ∈ introduced I pre, n ≤ M0 := fun n hn => hM n ((mem_introduced_snoc _ _ _ _).2 (Or.inl hn))
  have hfg : ∀ n ∈ c.mentions, f n = g n := fun n hn => h.map n (hM n (hr.mentions_introduced c (by simp) n hn))
  have hlive : ∀ n, Live I pre n → Live I st.pattern.seq (f n) := by
    intro n hn
    rw [hfm n (hM' n hn.1)]
    exact (h.live _).2 ⟨n, hn, rfl⟩
  have hdom : ∀ d : Finset ℕ, (∀ n ∈ d, n ∈ measuredIn pre) → ∀ n ∈ d.image f, n ∈ measuredIn st.pattern.seq := by
    intro d hd n hn
    obtain ⟨n', hn', rfl⟩ := Finset.mem_image.1 hn
    rw [hfm n' (hM' n' (hr.prefix.measured_sub n' (hd n' hn')))]
    exact h.meas n' (hd n' hn')
  have hprep : ∀ n, c.prepared? = some n → f n = n ∧ g n = n ∧ n ≤ M0 ∧ n ∉ introduced I pre := by
    intro n hn
    have hn0 : n ≤ M0 := hM n ((mem_introduced_snoc _ _ _ _).2 (Or.inr hn))
    have hni : n ∉ introduced I pre := by
      cases c <;> simp [Command.prepared?] at hn
      subst hn; exact ha
    have := h.fresh n hn0 hni
    exact ⟨by rw [hfm n hn0, this], this, hn0, hni⟩
  have hmeas : ∀ n, c.measured? = some n → f n = g n ∧ Live I pre n := by
    intro n hn
    cases c <;> simp [Command.measured?] at hn
    subst hn
    exact ⟨hfg _ (by simp [Command.mentions]), ha.1⟩
  have hpm : ∀ m, (c.reindex f).prepared? = some m ↔ c.prepared? = some m := by
    intro m
    rw [prepared_reindex1]
    cases hp : c.prepared? with
    | none => simp
    | some n => simp [(hprep n hp).1]
  constructor
  · exact h.le
  · rw [hseq]
    conv_lhs => rw [h.ext]
    simp [Pattern.extend]
  · exact h.map
  · exact h.bnd
  · exact h.fix
  · intro n hn hn'
    exact h.fresh n hn fun h' => hn' ((mem_introduced_snoc _ _ _ _).2 (Or.inl h'))
  · show Runnable I (st.pattern.add (c.reindex f)).seq
    rw [hseq]
    refine h.run.snoc ?_
    cases c with
    | N n s =>
      have := hprep n rfl
      show f n ∉ _
      rw [this.1, h.intr]
      rintro (h' | h')
      · exact this.2.2.2 h'
      · omega
    | M n m s t => exact ⟨hlive n ha.1, hdom s ha.2.1, hdom t ha.2.2⟩
    | E u v => exact ⟨hlive u ha.1, hlive v ha.2⟩
    | C n q => exact absurd rfl (hc n q)
    | X n d => exact ⟨hlive n ha.1, hdom d ha.2⟩
    | Z n d => exact ⟨hlive n ha.1, hdom d ha.2⟩
    | S n d => trivial
    | T => trivial
  · intro m
    show m ∈ introduced I (st.pattern.add (c.reindex f)).seq ↔ _
    rw [hseq, mem_introduced_snoc, mem_introduced_snoc, h.intr, hpm]
    constructor
    · rintro ((h | h) | h)
      · exact Or.inl (Or.inl h)
      · exact Or.inr h
      · exact Or.inl (Or.inr h)
    · rintro ((h | h) | h)
      · exact Or.inl (Or.inl h)
      · exact Or.inr h
      · exact Or.inl (Or.inr h)
  · intro m
    show Live I (st.pattern.add (c.reindex f)).seq m ↔ _
    rw [hseq, live_snoc, hpm, measured_reindex1]
    constructor
    · rintro ⟨h1 | h1, h2, h3⟩
      · obtain ⟨n, hn, rfl⟩ := (h.live m).1 ⟨h1, h2⟩
        refine ⟨n, (live_snoc _ _ _ _).2 ⟨Or.inl hn.1, hn.2, fun h' => h3 ?_⟩, rfl⟩
        rw [h', Option.map_some, (hmeas n h').1]
      · obtain ⟨p1, p2, p3, p4⟩ := hprep m h1
        refine ⟨m, (live_snoc _ _ _ _).2 ⟨Or.inr h1, fun h' => p4 (hr.prefix.measured_sub m h'), fun h' => ?_⟩, p2⟩
        cases c <;> simp [Command.measured?, Command.prepared?] at h1 h'
    · rintro ⟨n, hn, rfl⟩
      obtain ⟨h1 | h1, h2, h3⟩ := (live_snoc _ _ _ _).1 hn
      · obtain ⟨l1, l2⟩ := (h.live (g n)).2 ⟨n, ⟨h1, h2⟩, rfl⟩
        refine ⟨Or.inl l1, l2, fun h' => ?_⟩
        cases hq : c.measured? with
        | none => rw [hq] at h'; simp at h'
        | some n' =>
          rw [hq] at h'
          simp only [Option.map_some, Option.some.injEq] at h'
          rw [(hmeas n' hq).1] at h'
          rw [g.injective h'] at hq
          exact h3 hq
      · obtain ⟨p1, p2, p3, p4⟩ := hprep n h1
        rw [p2]
        refine ⟨Or.inr h1, fun h' => ?_, fun h' => ?_⟩
        · rcases (h.intr n).1 (h.run.measured_sub n h') with h' | h'
          · exact p4 h'
          · omega
        · cases c <;> simp [Command.measured?, Command.prepared?] at h1 h'
  · intro n hn
    show g n ∈ measuredIn (st.pattern.add (c.reindex f)).seq
    rw [hseq, mem_measuredIn_snoc, measured_reindex1]
    rcases (mem_measuredIn_snoc _ _ _).1 hn with hn | hn
    · exact Or.inl (h.meas n hn)
    · right; rw [hn, Option.map_some, (hmeas n hn).1]
  · intro n q
    show Command.C n q ∉ (st.pattern.add (c.reindex f)).seq
    rw [hseq, List.mem_append]
    rintro (h' | h')
    · exact h.noC n q h'
    · cases c <;> simp [Command.reindex] at h'
      exact hc _ _ rfl
  · intro r
    show OpPhaseEqOn (Absent (prepOf (st.pattern.add (c.reindex f)).seq)) (semCmds r (st.pattern.add (c.reindex f)).seq) _
    rw [hseq]
    obtain ⟨e, he, hs⟩ := h.sem r
    refine ⟨e, he, fun ψ hψ => ?_⟩
    have hψ' : Absent (prepOf st.pattern.seq) ψ := hψ.mono (by simp [prepOf])
    rw [semCmds_append, hs ψ hψ']
    beta_reduce
    rw [semCmds_append]
    show (c.reindex f).sem r _ = _
    rw [Command.sem_homog, Command.sem_homog, sem_reindex g.injective c hfg]
    rfl

theorem applyMapping_set (d : PyDict ℕ ℕ) (n v m : ℕ) :
    Pattern.applyMapping (d.set n v) m = if m = n then v else Pattern.applyMapping d m := by
  unfold Pattern.applyMapping
  rw [PyDict.get?_set]
  split <;> rename_i h
  · rw [if_pos (by first | exact h | exact h.symm)]; rfl
  · rw [if_neg (by first | exact h | exact fun e => h e.symm)]

/-- One step of the loop, for a Clifford gate that is not the identity. -/
theorem RCInv.stepC {I : List ℕ} {M0 : ℕ} {pre : List Command} {st : RemoveClifford} {g : Equiv.Perm ℕ} {k : ℕ}
    (h : RCInv I M0 pre st g k) {n : ℕ} {c : Clifford} (hr : Runnable I (pre ++ [.C n c])) (hM : ∀ m ∈ introduced I pre, m ≤ M0)
    {cp : Pattern} {len : ℕ} (hcr : Runnable [0] cp.seq) (hout : cp.OutputsOk) (hin : cp.inputs = [0]) (ho : cp.outputs = [len])
    (hprep : cp.preparedNodes = Finset.Icc 1 len) (hlen : 1 ≤ len) (hnoC : ∀ n g, Command.C n g ∉ cp.seq)
    (hsem : ∀ r, OpPhaseEqOn (Absent (Finset.Icc 1 len)) (semCmds r cp.seq) fun ψ =>
        (1 / (Real.sqrt 2 : ℂ)) ^ len • ren (Equiv.swap 0 len) (op1 c.matrix 0 ψ)) :
    RCInv I M0 (pre ++ [.C n c])
      ⟨st.pattern.extend (cp.seq.map (Command.reindex (cliffordRename (Pattern.applyMapping st.mapping n) st.maxNode))),
        st.mapping.set n (st.maxNode + len), st.maxNode + len⟩
      (Equiv.swap (g n) (st.maxNode + len) * g) (k + len) := by
  have hln : Live I pre n := hr.last
  have hnM : n ≤ M0 := hM n hln.1
  have hle := h.le
  rw [h.map n hnM]
  set M := st.maxNode with hMdef
  have hgn : g n ≤ M := h.bnd n (by omega)
  set f0 := cliffordRename (g n) M with hf0
  set blk := cp.seq.map (Command.reindex f0) with hblk
  have hseq : (st.pattern.extend blk).seq = st.pattern.seq ++ blk := by
    rw [h.ext]
    have : ((Pattern.empty I).extend st.pattern.seq).extend blk = (Pattern.empty I).extend (st.pattern.seq ++ blk) := by
      simp [Pattern.extend]
    rw [this, (C08_count _ _).1, (C08_count _ _).1]
  have hinj : ∀ x y, f0 x = f0 y → x = y := cliffordRename_inj hgn
  -- nodes of the block
  have hci : ∀ x, x ∈ introduced [0] cp.seq ↔ x ≤ len := by
    intro x
    unfold introduced
    rw [List.mem_append]
    have : x ∈ cp.seq.filterMap Command.prepared? ↔ x ∈ cp.preparedNodes := by simp [Pattern.preparedNodes]
    rw [this, hprep]
    simp; omega
  have hcm : ∀ x, x ∈ measuredIn cp.seq ↔ x < len := by
    intro x
    have h1 := hout.outputs x
    rw [ho, hin] at h1
    unfold Live at h1
    rw [hci, List.mem_singleton] at h1
    constructor
    · intro hx
      have h2 := (hci x).1 (hcr.measured_sub x hx)
      have : x ≠ len := fun e => (h1.1 e).2 hx
      omega
    · intro hx
      by_contra hn
      have := h1.2 ⟨by omega, hn⟩
      omega
  have hbr : Runnable [g n] blk := by
    have := hcr.reindex (f := f0) fun a _ b _ e => hinj a b e
    simpa [hf0, cliffordRename] using this
  have hbi : ∀ m, m ∈ introduced [g n] blk ↔ m = g n ∨ M < m ∧ m ≤ M + len := by
    intro m
    have e : [g n] = [0].map f0 := by simp [hf0, cliffordRename]
    rw [e, hblk, introduced_reindex, List.mem_map]
    constructor
    · rintro ⟨x, hx, rfl⟩
      have := (hci x).1 hx
      by_cases h0 : x = 0
      · left; subst h0; simp [hf0, cliffordRename]
      · right; simp only [hf0, cliffordRename]; rw [if_neg h0]; omega
    · rintro (rfl | hm)
      · exact ⟨0, (hci 0).2 (by omega), by simp [hf0, cliffordRename]⟩
      · refine ⟨m - M, (hci _).2 (by omega), ?_⟩
        simp only [hf0, cliffordRename]; rw [if_neg (by omega)]; omega
  have hbm : ∀ m, m ∈ measuredIn blk ↔ m = g n ∨ M < m ∧ m < M + len := by
    intro m
    rw [hblk, measured_reindex, List.mem_map]
    constructor
    · rintro ⟨x, hx, rfl⟩
      have := (hcm x).1 hx
      by_cases h0 : x = 0
      · left; subst h0; simp [hf0, cliffordRename]
      · right; simp only [hf0, cliffordRename]; rw [if_neg h0]; omega
    · rintro (rfl | hm)
      · exact ⟨0, (hcm 0).2 (by omega), by simp [hf0, cliffordRename]⟩
      · refine ⟨m - M, (hcm _).2 (by omega), ?_⟩
        simp only [hf0, cliffordRename]; rw [if_neg (by omega)]; omega
  have hsi : ∀ m ∈ introduced I st.pattern.seq, m ≤ M := by
    intro m hm
    rcases (h.intr m).1 hm with h' | h'
    · have := hM m h'; omega
    · exact h'.2
  have hgl : Live I st.pattern.seq (g n) := (h.live _).2 ⟨n, hln, rfl⟩
  have hrun : Runnable I (st.pattern.seq ++ blk) := by
    have := compose_runnable h.run hbr (by
      intro m hm hm'
      have h1 := hsi m hm'
      rcases (hbi m).1 hm with rfl | h2
      · exact ⟨hgl.2, by simp⟩
      · omega)
    have hf : ([g n].filter fun m => m ∉ introduced I st.pattern.seq) = [] := by simp [hgl.1]
    rwa [hf, List.append_nil] at this
  have hint : ∀ m, m ∈ introduced I (st.pattern.seq ++ blk) ↔ m ∈ introduced I st.pattern.seq ∨ M < m ∧ m ≤ M + len := by
    intro m
    rw [introduced_append, List.mem_append]
    have hb := hbi m
    unfold introduced at hb
    rw [List.mem_append, List.mem_singleton] at hb
    constructor
    · rintro (h' | h')
      · exact Or.inl h'
      · rcases hb.1 (Or.inr h') with rfl | h2
        · exact Or.inl hgl.1
        · exact Or.inr h2
    · rintro (h' | h')
      · exact Or.inl h'
      · rcases hb.2 (Or.inr h') with rfl | h2
        · omega
        · exact Or.inr h2
  have hpi : ∀ m, m ∈ introduced I (pre ++ [.C n c]) ↔ m ∈ introduced I pre := by
    intro m; rw [mem_introduced_snoc]; simp [Command.prepared?]
  have hpl : ∀ m, Live I (pre ++ [.C n c]) m ↔ Live I pre m := by
    intro m; rw [live_snoc]; simp [Command.prepared?, Command.measured?, Live]
  have hpm : ∀ m, m ∈ measuredIn (pre ++ [.C n c]) ↔ m ∈ measuredIn pre := by
    intro m; rw [mem_measuredIn_snoc]; simp [Command.measured?]
  -- the new naming
  have hswap : ∀ m ≤ M, m ≠ n → (Equiv.swap (g n) (M + len) * g) m = g m := by
    intro m hm hmn
    have := h.bnd m hm
    rw [Equiv.Perm.mul_apply, Equiv.swap_apply_of_ne_of_ne]
    · exact fun e => hmn (g.injective e)
    · omega
  have hswn : (Equiv.swap (g n) (M + len) * g) n = M + len := by
    rw [Equiv.Perm.mul_apply, Equiv.swap_apply_left]
  have hmeas_sub := hr.prefix.measured_sub
  constructor
  · show M0 ≤ M + len; omega
  · show st.pattern.extend blk = (Pattern.empty I).extend (st.pattern.extend blk).seq
    rw [hseq]
    conv_lhs => rw [h.ext]
    simp [Pattern.extend]
  · intro m hm
    show Pattern.applyMapping (st.mapping.set n (M + len)) m = _
    rw [applyMapping_set]
    by_cases hmn : m = n
    · subst hmn; rw [if_pos rfl, hswn]
    · rw [if_neg hmn, hswap m (by omega) hmn, h.map m hm]
  · intro m hm
    show (Equiv.swap (g n) (M + len) * g) m ≤ M + len
    have hm : m ≤ M + len := hm
    by_cases hmn : m = n
    · subst hmn; rw [hswn]
    · by_cases hmM : m ≤ M
      · rw [hswap m hmM hmn]; have := h.bnd m hmM; omega
      · rw [Equiv.Perm.mul_apply, h.fix m (by omega)]
        by_cases he : m = M + len
        · rw [he, Equiv.swap_apply_right]; omega
        · rw [Equiv.swap_apply_of_ne_of_ne (by omega) he]; exact hm
  · intro m hm
    have hm : M + len < m := hm
    rw [Equiv.Perm.mul_apply, h.fix m (by omega), Equiv.swap_apply_of_ne_of_ne (by omega) (by omega)]
  · intro m hm hm'
    rw [hpi] at hm'
    have hmn : m ≠ n := by rintro rfl; exact hm' hln.1
    rw [hswap m (by omega) hmn, h.fresh m hm hm']
  · show Runnable I (st.pattern.extend blk).seq
    rw [hseq]; exact hrun
  · intro m
    show m ∈ introduced I (st.pattern.extend blk).seq ↔ _ ∨ M0 < m ∧ m ≤ M + len
    rw [hseq, hint, hpi, h.intr]
    constructor
    · rintro ((h' | h') | h')
      · exact Or.inl h'
      · exact Or.inr ⟨h'.1, by omega⟩
      · exact Or.inr ⟨by omega, h'.2⟩
    · rintro (h' | h')
      · exact Or.inl (Or.inl h')
      · by_cases hmM : m ≤ M
        · exact Or.inl (Or.inr ⟨h'.1, hmM⟩)
        · exact Or.inr ⟨by omega, h'.2⟩
  · intro m
    show Live I (st.pattern.extend blk).seq m ↔ _
    rw [hseq]
    unfold Live
    have hbm' : m ∈ blk.filterMap Command.measured? ↔ m = g n ∨ M < m ∧ m < M + len := hbm m
    rw [hint, measuredIn_append, List.mem_append, hbm']
    constructor
    · rintro ⟨h1 | h1, h2⟩
      · obtain ⟨n', hn', rfl⟩ := (h.live m).1 ⟨h1, fun h' => h2 (Or.inl h')⟩
        have hne : n' ≠ n := by rintro rfl; exact h2 (Or.inr (Or.inl rfl))
        have hn0 := hM n' hn'.1
        exact ⟨n', (hpl n').2 hn', hswap n' (by omega) hne⟩
      · have : m = M + len := by
          by_contra hne
          exact h2 (Or.inr (Or.inr ⟨h1.1, by omega⟩))
        exact ⟨n, (hpl n).2 hln, by rw [hswn, this]⟩
    · rintro ⟨n', hn', rfl⟩
      have hn' := (hpl n').1 hn'
      have hn0 := hM n' hn'.1
      by_cases hne : n' = n
      · subst hne
        rw [hswn]
        refine ⟨Or.inr ⟨by omega, le_refl _⟩, ?_⟩
        rintro (h' | h' | h')
        · have := hsi _ (h.run.measured_sub _ h'); omega
        · omega
        · omega
      · rw [hswap n' (by omega) hne]
        obtain ⟨l1, l2⟩ := (h.live (g n')).2 ⟨n', hn', rfl⟩
        refine ⟨Or.inl l1, ?_⟩
        have := hsi _ l1
        rintro (h' | h' | h')
        · exact l2 h'
        · exact hne (g.injective h')
        · omega
  · intro m hm
    rw [hpm] at hm
    show _ ∈ measuredIn (st.pattern.extend blk).seq
    have hmn : m ≠ n := by rintro rfl; exact hln.2 hm
    have hm0 := hM m (hmeas_sub m hm)
    rw [hswap m (by omega) hmn, hseq, measuredIn_append]
    exact List.mem_append.2 <| Or.inl (h.meas m hm)
  · intro m q hq
    have hq : Command.C m q ∈ (st.pattern.extend blk).seq := hq
    rw [hseq, List.mem_append] at hq
    rcases hq with hq | hq
    · exact h.noC m q hq
    · rw [hblk, List.mem_map] at hq
      obtain ⟨x, hx, hx'⟩ := hq
      cases x <;> simp [Command.reindex] at hx'
      exact hnoC _ _ hx
  · intro r
    show OpPhaseEqOn (Absent (prepOf (st.pattern.extend blk).seq)) (semCmds r (st.pattern.extend blk).seq) _
    rw [hseq]
    obtain ⟨e, he, hs⟩ := h.sem r
    obtain ⟨e', he', hs'⟩ := clifford_block c cp len hcr hin hprep hlen hsem hgn r
    refine ⟨e * e', by rw [norm_mul, he, he', one_mul], fun ψ hψ => ?_⟩
    have hψ1 : Absent (prepOf st.pattern.seq) ψ := hψ.mono (by simp [prepOf])
    have hψ2 : Absent (Finset.Ioc M (M + len)) ψ := hψ.mono (by
      intro m hm
      have hb := (hbi m).2 (Or.inr (by simpa using hm))
      unfold introduced at hb
      rcases List.mem_append.1 hb with hb | hb
      · simp at hb hm; omega
      · simp only [prepOf, List.filterMap_append, List.toFinset_append, Finset.mem_union, List.mem_toFinset]
        exact Or.inr hb)
    have hχ : Absent (Finset.Ioc M (M + len)) (semCmds r st.pattern.seq ψ) := by
      refine hψ2.semCmds r _ fun x hx m hm => ?_
      have := hsi m (h.run.mentions_introduced x hx m hm)
      simp; omega
    rw [semCmds_append, hs' _ hχ, hs ψ hψ1]
    beta_reduce
    have hcong : semCmds (r ∘ ⇑(Equiv.swap (g n) (M + len) * g)) pre ψ = semCmds (r ∘ ⇑g) pre ψ := by
      refine semCmds_congr pre ∅ _ _ (DomainsOk.of_runnable hr.prefix) (fun m hm => ?_) ψ
      simp only [Finset.empty_union, List.mem_toFinset] at hm
      have hmn : m ≠ n := by rintro rfl; exact hln.2 hm
      have hm0 := hM m (hmeas_sub m hm)
      show r _ = r _
      rw [hswap m (by omega) hmn]
    rw [semCmds_append, hcong, op1_smul, op1_smul, op1_ren g.injective]
    show _ = _ • _ • ren _ (op1 c.matrix n _)
    have : ren (⇑(Equiv.swap (g n) (M + len) * g)) (op1 c.matrix n (semCmds (r ∘ ⇑g) pre ψ)) =
        ren (Equiv.swap (g n) (M + len)) (ren g (op1 c.matrix n (semCmds (r ∘ ⇑g) pre ψ))) := rfl
    rw [this, ren_smul_fun, ren_smul_fun, smul_smul, smul_smul, smul_smul, smul_smul]
    congr 1
    ring

end Graphix
