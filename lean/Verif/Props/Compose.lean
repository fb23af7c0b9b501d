import Verif.Proofs.Reindex

/-!
# Properties C21 and C22: renaming nodes and composing patterns
-/

namespace Graphix

open Function

/-! ### C21 -/

/-- **C21** `node_mapping` succeeds exactly when the user's mapping only renames nodes of the pattern
and is injective; the result extends the user's mapping, maps every other node of the pattern (except
the preserved ones) and nothing else, is injective, and the new labels are at least `start`, not
avoided, not preserved, and not used by the user's mapping. -/
theorem C21_node_mapping (p : Pattern) (mapping : PyDict ℕ ℕ) (hm : (PyDict.keys mapping).Nodup)
    (start : ℕ) (avoids preserves : Finset ℕ) :
    ((∃ d, p.nodeMapping mapping start avoids preserves = .ok d) ↔
      (∀ k ∈ PyDict.keys mapping, k ∈ introduced p.inputs p.seq) ∧ (mapping.map Prod.snd).Nodup) ∧
    ∀ d, p.nodeMapping mapping start avoids preserves = .ok d →
      (∀ k ∈ PyDict.keys mapping, PyDict.get? d k = PyDict.get? mapping k) ∧
      (∀ k, k ∈ PyDict.keys d ↔ k ∈ PyDict.keys mapping ∨
        (k ∈ introduced p.inputs p.seq ∧ k ∉ preserves)) ∧
      (∀ k k' v, PyDict.get? d k = some v → PyDict.get? d k' = some v → k = k') ∧
      (∀ k v, PyDict.get? d k = some v → k ∉ PyDict.keys mapping →
        start ≤ v ∧ v ∉ avoids ∧ v ∉ preserves ∧ ∀ k', PyDict.get? mapping k' ≠ some v) := by
  have hmem : ∀ n, n ∈ p.nodes ↔ n ∈ introduced p.inputs p.seq := p.mem_nodes
  unfold Pattern.nodeMapping
  by_cases h1 : ∀ k ∈ PyDict.keys mapping, k ∈ p.nodes
  · by_cases h2 : (mapping.map Prod.snd).Nodup
    · simp only []
      rw [if_neg (not_not.2 h1), if_neg (not_not.2 h2)]
      refine ⟨⟨fun _ => ⟨fun k hk => (hmem k).1 (h1 k hk), h2⟩, fun _ => ⟨_, rfl⟩⟩, ?_⟩
      intro d hd
      cases hd
      set used := avoids ∪ (mapping.map Prod.snd).toFinset ∪ preserves with hu
      have hv : ∀ k v, PyDict.get? mapping k = some v → v ∈ used := by
        intro k v hkv
        have := PyDict.mem_of_get? hkv
        rw [hu]; simp only [Finset.mem_union, List.mem_toFinset, List.mem_map]
        exact Or.inl (Or.inr ⟨(k, v), this, rfl⟩)
      have init : MapInv used start mapping mapping start := by
        refine ⟨hm, fun _ _ => rfl, ?_, ?_, le_refl _, fun _ h => h⟩
        · intro k v hkv hk
          exact absurd ((PyDict.get?_isSome_iff _ _).1 (by rw [hkv]; rfl)) hk
        · intro k k' v hk hk'
          have := List.inj_on_of_nodup_map h2 (PyDict.mem_of_get? hk) (PyDict.mem_of_get? hk') rfl
          exact congrArg Prod.fst this
      obtain ⟨c, hi, hk⟩ := nodeMappingLoop_spec (preserves := preserves) hv (p.nodes.sort (· ≤ ·)) init
      refine ⟨hi.ext, ?_, hi.inj, ?_⟩
      · intro k; rw [hk k, Finset.mem_sort, hmem]
      · intro k v hkv hkm
        obtain ⟨f1, f2, -⟩ := hi.fresh k v hkv hkm
        refine ⟨f2, fun h => f1 (by rw [hu]; simp [h]), fun h => f1 (by rw [hu]; simp [h]), ?_⟩
        intro k' hk'; exact f1 (hv k' v hk')
    · simp only []
      rw [if_neg (not_not.2 h1), if_pos h2]
      refine ⟨⟨(by rintro ⟨d, hd⟩; cases hd), fun h => absurd h.2 h2⟩, fun d hd => by cases hd⟩
  · simp only []
    rw [if_pos h1]
    refine ⟨⟨(by rintro ⟨d, hd⟩; cases hd), fun h => absurd (fun k hk => (hmem k).2 (h.1 k hk)) h1⟩,
      fun d hd => by cases hd⟩

/-- **C21** Renaming with a function that is injective on the nodes of the pattern succeeds; the
renamed pattern is runnable, its nodes, inputs, outputs and measurements are the renamed ones (in the
same order), and in every branch it does what the original does, with the qubits renamed: `g` is any
injective function that agrees with `f` on the nodes of the pattern (there is one,
`exists_injective_extension`). -/
theorem C21_reindex (p : Pattern) (hp : p.OutputsOk) (hr : p.checkRunnability = .ok ()) (f : ℕ → ℕ)
    (hf : ∀ a ∈ introduced p.inputs p.seq, ∀ b ∈ introduced p.inputs p.seq, f a = f b → a = b) :
    ∃ q, p.reindexFunc f = .ok q ∧ q.OutputsOk ∧ q.checkRunnability = .ok () ∧
      q.inputs = p.inputs.map f ∧ q.outputs = p.outputs.map f ∧
      q.seq = p.seq.map (Command.reindex f) ∧
      introduced q.inputs q.seq = (introduced p.inputs p.seq).map f ∧
      measuredIn q.seq = (measuredIn p.seq).map f ∧
      ∀ g : ℕ → ℕ, Injective g → (∀ k ∈ introduced p.inputs p.seq, g k = f k) → ∀ r ψ,
        semCmds r q.seq (ren g ψ) = ren g (semCmds (r ∘ g) p.seq ψ) := by
  rw [checkRunnability_iff] at hr
  have hr' := hr.reindex hf
  have hin : (p.inputs.map f).Nodup := by
    refine (List.nodup_map_iff_inj_on hp.inputs_nodup).2 ?_
    intro a ha b hb h
    exact hf a (List.mem_append_left _ ha) b (List.mem_append_left _ hb) h
  have hlive : ∀ n, n ∈ p.outputs.map f ↔ Live (p.inputs.map f) (p.seq.map (Command.reindex f)) n := by
    intro n
    unfold Live
    rw [introduced_reindex, measured_reindex]
    simp only [List.mem_map]
    constructor
    · rintro ⟨k, hk, rfl⟩
      have hk' := (hp.outputs k).1 hk
      refine ⟨⟨k, hk'.1, rfl⟩, ?_⟩
      rintro ⟨k2, hk2, he⟩
      exact hk'.2 (hf k2 (hr.measured_sub k2 hk2) k hk'.1 he ▸ hk2)
    · rintro ⟨⟨k, hk, rfl⟩, h⟩
      exact ⟨k, (hp.outputs k).2 ⟨hk, fun hm => h ⟨k, hm, rfl⟩⟩, rfl⟩
  have hon : (p.outputs.map f).Nodup := by
    refine (List.nodup_map_iff_inj_on hp.outputs_nodup).2 ?_
    intro a ha b hb h
    exact hf a ((hp.outputs a).1 ha).1 b ((hp.outputs b).1 hb).1 h
  have hperm : assertPermutation
      ((Pattern.empty (p.inputs.map f)).extend (p.seq.map (Command.reindex f))).outputs
      (p.outputs.map f) = .ok () := by
    rw [assertPermutation_ok_iff]
    refine ⟨?_, hon⟩
    rw [C08_outputs _ hin _ hr']
    ext n
    simp only [List.mem_toFinset, List.mem_filter, decide_eq_true_eq]
    exact hlive n
  obtain ⟨c1, c2, -⟩ := C08_count (p.inputs.map f) (p.seq.map (Command.reindex f))
  refine ⟨{ (Pattern.empty (p.inputs.map f)).extend (p.seq.map (Command.reindex f)) with
    outputs := p.outputs.map f }, ?_, ?_, ?_, c2, rfl, c1, ?_, ?_, ?_⟩
  · unfold Pattern.reindexFunc Pattern.reorderOutputNodes
    simp only [hperm]; rfl
  · exact ⟨by simp only [c2]; exact hin, hon, fun n => by simp only [c1, c2]; exact hlive n⟩
  · rw [checkRunnability_iff]; simp only [c1, c2]; exact hr'
  · simp only [c1, c2]; exact introduced_reindex f _ _
  · simp only [c1]; exact measured_reindex f _
  · intro g hg hgf r ψ
    simp only [c1]
    exact semCmds_reindex hg _ (fun c hc k hk => (hgf k (hr.mentions_introduced c hc k hk)).symm) r ψ

/-- The function of a mapping that covers all nodes of the pattern is injective on its nodes. -/
theorem applyMapping_inj {p : Pattern} {mapping d : PyDict ℕ ℕ} (hm : (PyDict.keys mapping).Nodup)
    {start : ℕ} {avoids : Finset ℕ} (h : p.nodeMapping mapping start avoids ∅ = .ok d) :
    ∀ a ∈ introduced p.inputs p.seq, ∀ b ∈ introduced p.inputs p.seq,
      Pattern.applyMapping d a = Pattern.applyMapping d b → a = b := by
  obtain ⟨-, hspec⟩ := C21_node_mapping p mapping hm start avoids ∅
  obtain ⟨-, h2, h3, -⟩ := hspec d h
  have some : ∀ a ∈ introduced p.inputs p.seq, ∃ v, PyDict.get? d a = some v := by
    intro a ha
    exact Option.isSome_iff_exists.1 ((PyDict.get?_isSome_iff _ _).2 ((h2 a).2 (Or.inr ⟨ha, by simp⟩)))
  intro a ha b hb hab
  obtain ⟨va, hva⟩ := some a ha
  obtain ⟨vb, hvb⟩ := some b hb
  unfold Pattern.applyMapping at hab
  rw [hva, hvb] at hab
  simp only [Option.getD_some] at hab
  exact h3 a b va hva (hab ▸ hvb)

/-- **C21** `reindex()` without argument always succeeds on a runnable pattern, with an injective
renaming of its nodes. -/
theorem C21_reindex_default (p : Pattern) (hp : p.OutputsOk) (hr : p.checkRunnability = .ok ()) :
    ∃ q f, p.reindex none = .ok q ∧ p.reindexFunc f = .ok q ∧
      ∀ a ∈ introduced p.inputs p.seq, ∀ b ∈ introduced p.inputs p.seq, f a = f b → a = b := by
  obtain ⟨d, hd⟩ := (C21_node_mapping p [] (by simp [PyDict.keys]) 0 ∅ ∅).1.2 (by simp [PyDict.keys])
  have hinj := applyMapping_inj (by simp [PyDict.keys]) hd
  obtain ⟨q, hq, -⟩ := C21_reindex p hp hr _ hinj
  exact ⟨q, Pattern.applyMapping d, by unfold Pattern.reindex; simp only [hd]; exact hq, hq, hinj⟩

example : ∀ a ∈ introduced stdExample.inputs stdExample.seq,
    ∀ b ∈ introduced stdExample.inputs stdExample.seq, (a + 5) = (b + 5) → a = b := by
  intro a _ b _ h; omega

/-! ### C22 -/

/-- What `compose` requires of the user's partial mapping (the documented requirements). -/
structure ComposeOk (p1 p2 : Pattern) (mapping : PyDict ℕ ℕ) : Prop where
  keys : ∀ k ∈ PyDict.keys mapping, k ∈ introduced p2.inputs p2.seq
  inj : (mapping.map Prod.snd).Nodup
  unmeasured : ∀ kv ∈ mapping, kv.2 ∈ introduced p1.inputs p1.seq → kv.2 ∈ p1.outputs
  merged : ∀ kv ∈ mapping, kv.2 ∈ p1.outputs → kv.1 ∈ p2.inputs
  /-- `max()` of an empty sequence raises -/
  nonempty : introduced p1.inputs p1.seq ≠ [] ∨ mapping ≠ []

theorem toFinset_card_eq_length_iff (l : List ℕ) : l.length = l.toFinset.card ↔ l.Nodup := by
  rw [List.card_toFinset]
  constructor
  · intro h
    have := (List.dedup_sublist l).eq_of_length h.symm
    rw [← this]; exact List.nodup_dedup l
  · intro h; rw [h.dedup]

/-- The complete mapping: it renames the nodes of `p2` injectively, as requested by the user, and the
only nodes of `p1` it reaches are merged outputs. -/
theorem compose_mapping {p1 p2 : Pattern} {mapping : PyDict ℕ ℕ} (hm : (PyDict.keys mapping).Nodup)
    (hok : ComposeOk p1 p2 mapping) :
    ∃ shift d, Pattern.composeShift (p1.nodes ∪ (mapping.map Prod.snd).toFinset) = .ok shift ∧
      p2.nodeMapping mapping shift ∅ ∅ = .ok d ∧
      (∀ k v, PyDict.get? mapping k = some v → Pattern.applyMapping d k = v) ∧
      (∀ k ∈ introduced p2.inputs p2.seq, k ∉ PyDict.keys mapping →
        Pattern.applyMapping d k ∉ introduced p1.inputs p1.seq) ∧
      (∀ k ∈ introduced p2.inputs p2.seq, Pattern.applyMapping d k ∈ introduced p1.inputs p1.seq →
        Pattern.applyMapping d k ∈ p1.outputs ∧ k ∈ p2.inputs ∧ k ∈ PyDict.keys mapping) := by
  obtain ⟨shift, hs, hlt⟩ : ∃ shift, Pattern.composeShift (p1.nodes ∪ (mapping.map Prod.snd).toFinset) = .ok shift ∧
      ∀ n ∈ introduced p1.inputs p1.seq, n < shift := by
    unfold Pattern.composeShift
    rw [if_neg]
    · refine ⟨_, rfl, fun n hn => ?_⟩
      have : n ≤ (p1.nodes ∪ (mapping.map Prod.snd).toFinset).sup id :=
        Finset.le_sup (f := id) (Finset.mem_union_left _ ((p1.mem_nodes n).2 hn))
      omega
    · intro he
      rw [Finset.union_eq_empty] at he
      rcases hok.nonempty with h | h
      · apply h
        rw [List.eq_nil_iff_forall_not_mem]
        intro n hn
        have := (p1.mem_nodes n).2 hn
        rw [he.1] at this; simp at this
      · apply h
        have := he.2
        simpa using this
  obtain ⟨hex, hspec⟩ := C21_node_mapping p2 mapping hm shift ∅ ∅
  obtain ⟨d, hd⟩ := hex.2 ⟨hok.keys, hok.inj⟩
  obtain ⟨s1, s2, s3, s4⟩ := hspec d hd
  have happ : ∀ k v, PyDict.get? mapping k = some v → Pattern.applyMapping d k = v := by
    intro k v hkv
    have hk : k ∈ PyDict.keys mapping := (PyDict.get?_isSome_iff _ _).1 (by rw [hkv]; rfl)
    unfold Pattern.applyMapping; rw [s1 k hk, hkv]; rfl
  have hfresh : ∀ k ∈ introduced p2.inputs p2.seq, k ∉ PyDict.keys mapping →
        Pattern.applyMapping d k ∉ introduced p1.inputs p1.seq := by
    intro k hk hkm hmem
    obtain ⟨v, hv⟩ := Option.isSome_iff_exists.1 ((PyDict.get?_isSome_iff _ _).2
      ((s2 k).2 (Or.inr ⟨hk, by simp⟩)))
    have := (s4 k v hv hkm).1
    unfold Pattern.applyMapping at hmem; rw [hv] at hmem
    have := hlt v hmem
    omega
  refine ⟨shift, d, hs, hd, happ, hfresh, ?_⟩
  intro k hk hmem
  by_cases hkm : k ∈ PyDict.keys mapping
  · obtain ⟨v, hv⟩ := Option.isSome_iff_exists.1 ((PyDict.get?_isSome_iff _ _).2 hkm)
    rw [happ k v hv] at hmem ⊢
    have hmv := PyDict.mem_of_get? hv
    have ho := hok.unmeasured _ hmv hmem
    exact ⟨ho, hok.merged _ hmv ho, hkm⟩
  · exact absurd hmem (hfresh k hk hkm)

/-- Running a pattern and then the renamed second one is runnable. -/
theorem compose_runnable {I1 I2 : List ℕ} {l1 l2 : List Command} (h1 : Runnable I1 l1)
    (h2 : Runnable I2 l2)
    (hc : ∀ n ∈ introduced I2 l2, n ∈ introduced I1 l1 → n ∉ measuredIn l1 ∧ n ∈ I2) :
    Runnable (I1 ++ I2.filter (fun n => n ∉ introduced I1 l1)) (l1 ++ l2) := by
  set extra := I2.filter (fun n => n ∉ introduced I1 l1) with hex
  have hI2 : ∀ n ∈ I2, n ∈ introduced I2 l2 := fun n hn => List.mem_append_left _ hn
  have mem_int : ∀ (l : List Command) n, n ∈ introduced (I1 ++ extra) l ↔ n ∈ introduced I1 l ∨ n ∈ extra := by
    intro l n; unfold introduced; simp only [List.mem_append]; tauto
  refine Runnable.append ?_ ?_
  · -- the extra inputs do not disturb the first pattern
    intro pre c post hl
    have ha := h1 pre c post hl
    have live : ∀ {n}, Live I1 pre n → Live (I1 ++ extra) pre n :=
      fun h => ⟨(mem_int _ _).2 (Or.inl h.1), h.2⟩
    cases c with
    | N n st =>
      intro hn
      rcases (mem_int _ _).1 hn with hn | hn
      · exact ha hn
      · rw [hex, List.mem_filter] at hn
        have : n ∈ introduced I1 l1 := by
          rw [hl, introduced_append]; exact List.mem_append_right _ (by simp [Command.prepared?])
        simp [this] at hn
    | M n m s t => exact ⟨live ha.1, ha.2⟩
    | E u v => exact ⟨live ha.1, live ha.2⟩
    | C n g => exact live ha
    | X n d => exact ⟨live ha.1, ha.2⟩
    | Z n d => exact ⟨live ha.1, ha.2⟩
    | S n d => trivial
    | T => trivial
  · intro a c b hab
    have ha := h2 a c b hab
    have sub : ∀ {n}, n ∈ introduced I2 a → n ∈ introduced I2 l2 := by
      intro n hn; rw [hab, introduced_append]; exact List.mem_append_left _ hn
    have live : ∀ {n}, Live I2 a n → Live (I1 ++ extra) (l1 ++ a) n := by
      intro n hn
      have hn2 := sub hn.1
      refine ⟨?_, ?_⟩
      · rw [introduced_append, List.mem_append, mem_int]
        rcases List.mem_append.1 hn.1 with h | h
        · by_cases h' : n ∈ introduced I1 l1
          · exact Or.inl (Or.inl h')
          · exact Or.inl (Or.inr (by rw [hex]; simp [h, h']))
        · exact Or.inr h
      · rw [measuredIn_append, List.mem_append]
        rintro (h | h)
        · exact (hc n hn2 (h1.measured_sub n h)).1 h
        · exact hn.2 h
    have dom : ∀ {d : Finset ℕ}, (∀ k ∈ d, k ∈ measuredIn a) → ∀ k ∈ d, k ∈ measuredIn (l1 ++ a) := by
      intro d hd k hk; rw [measuredIn_append]; exact List.mem_append_right _ (hd k hk)
    cases c with
    | N n st =>
      intro hn
      have hn2 : n ∈ introduced I2 l2 := by
        rw [hab, introduced_append]; exact List.mem_append_right _ (by simp [Command.prepared?])
      have hnI : n ∉ I2 := fun h => ha (List.mem_append_left _ h)
      rw [introduced_append, List.mem_append, mem_int] at hn
      rcases hn with (hn | hn) | hn
      · exact hnI (hc n hn2 hn).2
      · rw [hex, List.mem_filter] at hn; exact hnI hn.1
      · exact ha (List.mem_append_right _ hn)
    | M n m s t => exact ⟨live ha.1, dom ha.2.1, dom ha.2.2⟩
    | E u v => exact ⟨live ha.1, live ha.2⟩
    | C n g => exact live ha
    | X n d => exact ⟨live ha.1, dom ha.2⟩
    | Z n d => exact ⟨live ha.1, dom ha.2⟩
    | S n d => trivial
    | T => trivial

/-- Inputs of a composition, from the documentation: the inputs of the first pattern, then the inputs
of the (renamed) second pattern that are not merged with outputs of the first. -/
def composeInputs (p1 p2 : Pattern) (f : ℕ → ℕ) : List ℕ :=
  p1.inputs ++ (p2.inputs.map f).filter (fun n => n ∉ p1.outputs)

/-- Outputs of a composition, from the documentation (`preserve_mapping = False`). -/
def composeOutputs (p1 p2 : Pattern) (f : ℕ → ℕ) : List ℕ :=
  p1.outputs.filter (fun n => n ∉ p2.inputs.map f) ++ p2.outputs.map f

/-- Outputs of a composition with `preserve_mapping = True`, from the documentation: the outputs of the
first pattern in their order, each merged one replaced by the output of the (renamed) second pattern
at the position at which it is an input of the second pattern. -/
def composeOutputsPreserved (p1 p2 : Pattern) (f : ℕ → ℕ) : List ℕ :=
  p1.outputs.map (fun n => (((p2.inputs.map f).zip (p2.outputs.map f)).lookup n).getD n)

open Classical in
/-- Outputs of a composition: `preserve_mapping` is honoured when every input of the second pattern is
merged and it has as many outputs as inputs. -/
noncomputable def composeOutputsOf (p1 p2 : Pattern) (f : ℕ → ℕ) (preserveMapping : Bool) : List ℕ :=
  if preserveMapping = true ∧ (∀ k ∈ p2.inputs, f k ∈ p1.outputs) ∧
      p2.inputs.length = p2.outputs.length then
    composeOutputsPreserved p1 p2 f
  else composeOutputs p1 p2 f

theorem foldl_set_get? (l : List (ℕ × ℕ)) (hl : (l.map Prod.fst).Nodup) (d : PyDict ℕ ℕ) (n : ℕ) :
    PyDict.get? (l.foldl (fun d kv => PyDict.set d kv.1 kv.2) d) n =
      (l.lookup n).or (PyDict.get? d n) := by
  induction l generalizing d with
  | nil => simp
  | cons x l ih =>
    obtain ⟨a, b⟩ := x
    simp only [List.map_cons, List.nodup_cons] at hl
    rw [List.foldl_cons, ih hl.2, List.lookup_cons]
    by_cases h : n = a
    · subst h
      have : l.lookup n = none := by
        rw [List.lookup_eq_none_iff]
        intro p hp
        rw [bne_iff_ne]
        rintro rfl
        exact hl.1 (List.mem_map_of_mem hp)
      simp [this, PyDict.get?_set_self]
    · have h' : (n == a) = false := by simpa using h
      rw [h', PyDict.get?_set_ne _ _ (Ne.symm h)]

theorem lookup_zip_of_mem {A B : List ℕ} (hAB : A.length = B.length) {n : ℕ} (hn : n ∈ A) :
    ∃ i, ∃ (hi : i < A.length) (hi' : i < B.length), A[i] = n ∧ (A.zip B).lookup n = some B[i] := by
  induction A generalizing B with
  | nil => simp at hn
  | cons a A ih =>
    cases B with
    | nil => simp at hAB
    | cons b B =>
      by_cases h : n = a
      · subst h; exact ⟨0, by simp, by simp, rfl, by simp [List.lookup_cons]⟩
      · have h' : (n == a) = false := by simpa using h
        rcases List.mem_cons.1 hn with hn | hn
        · exact absurd hn h
        · obtain ⟨i, hi, hi', e, e'⟩ := ih (by simpa using hAB) hn
          exact ⟨i + 1, by simpa using hi, by simpa using hi', by simpa using e,
            by simpa [List.lookup_cons, h'] using e'⟩

theorem lookup_zip_of_notMem {A B : List ℕ} {n : ℕ} (hn : n ∉ A) : (A.zip B).lookup n = none := by
  rw [List.lookup_eq_none_iff]
  intro p hp
  rw [bne_iff_ne]
  rintro rfl
  exact hn (List.of_mem_zip hp).1

theorem mapM_ok_map {α β : Type} (l : List α) (g : α → Except PyErr β) (h : α → β)
    (hg : ∀ x ∈ l, g x = .ok (h x)) : l.mapM g = .ok (l.map h) := by
  induction l with
  | nil => rfl
  | cons a l ih =>
    rw [List.mapM_cons, hg a (by simp), ih (fun x hx => hg x (List.mem_cons_of_mem _ hx))]; rfl

theorem nodup_of_lists {A B : List ℕ} (hA : A.Nodup) (hB : B.Nodup) (h : ∀ x ∈ A, x ∉ B) :
    (A ++ B).Nodup :=
  List.nodup_append.2 ⟨hA, hB, fun a ha b hb e => h a ha (e ▸ hb)⟩

/-- **C22** `compose` succeeds when the documented requirements hold.
The second pattern is renamed by the returned complete mapping, which extends the user's mapping, is
injective, and sends no unmapped node onto a node of the first pattern; the commands are those of the
first pattern followed by the renamed second one; inputs and outputs are merged as documented; and the
result is runnable, with its unmeasured nodes as outputs. -/
theorem C22_compose (p1 p2 : Pattern) (h1 : p1.OutputsOk) (h2 : p2.OutputsOk)
    (r1 : p1.checkRunnability = .ok ()) (r2 : p2.checkRunnability = .ok ())
    (mapping : PyDict ℕ ℕ) (hm : (PyDict.keys mapping).Nodup) (hok : ComposeOk p1 p2 mapping)
    (preserveMapping : Bool) :
    ∃ p d, p1.compose p2 mapping preserveMapping = .ok (p, d) ∧
      (∀ k v, PyDict.get? mapping k = some v → Pattern.applyMapping d k = v) ∧
      (∀ a ∈ introduced p2.inputs p2.seq, ∀ b ∈ introduced p2.inputs p2.seq,
        Pattern.applyMapping d a = Pattern.applyMapping d b → a = b) ∧
      (∀ k ∈ introduced p2.inputs p2.seq, k ∉ PyDict.keys mapping →
        Pattern.applyMapping d k ∉ introduced p1.inputs p1.seq) ∧
      p.seq = p1.seq ++ p2.seq.map (Command.reindex (Pattern.applyMapping d)) ∧
      p.inputs = composeInputs p1 p2 (Pattern.applyMapping d) ∧
      p.outputs = composeOutputsOf p1 p2 (Pattern.applyMapping d) preserveMapping ∧
      p.checkRunnability = .ok () ∧ p.OutputsOk := by
  obtain ⟨shift, d, hs, hd, happ, hfresh, hmeet⟩ := compose_mapping hm hok
  have hinj := applyMapping_inj hm hd
  obtain ⟨q, hq, qo, qr, q1, q2, q3, q4, q5, -⟩ := C21_reindex p2 h2 r2 _ hinj
  set f := Pattern.applyMapping d with hf
  rw [checkRunnability_iff] at r1 r2 qr
  have hout1 : ∀ n ∈ p1.outputs, n ∈ introduced p1.inputs p1.seq := fun n hn => ((h1.outputs n).1 hn).1
  -- the merged nodes
  have hmerged : ∀ n, n ∈ ((mapping.map Prod.snd).toFinset ∩ p1.outputs.toFinset) ↔
      n ∈ p1.outputs ∧ n ∈ q.inputs := by
    intro n
    simp only [Finset.mem_inter, List.mem_toFinset, q1, List.mem_map]
    constructor
    · rintro ⟨⟨⟨k, v⟩, hkv, rfl⟩, ho⟩
      refine ⟨ho, k, hok.merged _ hkv ho, happ k v (PyDict.get?_of_mem hm hkv)⟩
    · rintro ⟨ho, k, hk, rfl⟩
      obtain ⟨-, -, hkm⟩ := hmeet k (List.mem_append_left _ hk) (hout1 _ ho)
      obtain ⟨v, hv⟩ := Option.isSome_iff_exists.1 ((PyDict.get?_isSome_iff _ _).2 hkm)
      exact ⟨⟨(k, v), PyDict.mem_of_get? hv, (happ k v hv).symm⟩, ho⟩
  have ein : p1.inputs ++ q.inputs.filter
      (fun n => n ∉ ((mapping.map Prod.snd).toFinset ∩ p1.outputs.toFinset)) = composeInputs p1 p2 f := by
    unfold composeInputs
    rw [← q1]; congr 1
    apply List.filter_congr
    intro n hn
    simp [hmerged, hn, -Finset.mem_inter]
  have eout : p1.outputs.filter
      (fun n => n ∉ ((mapping.map Prod.snd).toFinset ∩ p1.outputs.toFinset)) ++ q.outputs =
      composeOutputs p1 p2 f := by
    unfold composeOutputs
    rw [← q1, q2]; congr 1
    apply List.filter_congr
    intro n hn
    simp [hmerged, hn, -Finset.mem_inter]
  -- runnability
  have hcoll : ∀ n ∈ introduced q.inputs q.seq, n ∈ introduced p1.inputs p1.seq →
      n ∈ p1.outputs ∧ n ∈ q.inputs := by
    intro n hn hn1
    rw [q4] at hn
    obtain ⟨k, hk, rfl⟩ := List.mem_map.1 hn
    obtain ⟨ho, hki, -⟩ := hmeet k hk hn1
    exact ⟨ho, by rw [q1]; exact List.mem_map_of_mem hki⟩
  have hrun : Runnable (composeInputs p1 p2 f) (p1.seq ++ q.seq) := by
    have := compose_runnable r1 qr (fun n hn hn1 => by
      obtain ⟨ho, hi⟩ := hcoll n hn hn1
      exact ⟨((h1.outputs n).1 ho).2, hi⟩)
    have e : q.inputs.filter (fun n => n ∉ introduced p1.inputs p1.seq) =
        (p2.inputs.map f).filter (fun n => n ∉ p1.outputs) := by
      rw [← q1]
      apply List.filter_congr
      intro n hn
      have : n ∈ introduced p1.inputs p1.seq ↔ n ∈ p1.outputs :=
        ⟨fun h => (hcoll n (List.mem_append_left _ hn) h).1, hout1 n⟩
      simp [this]
    rw [e] at this; exact this
  have hinn : (composeInputs p1 p2 f).Nodup := by
    unfold composeInputs
    rw [← q1]
    refine nodup_of_lists h1.inputs_nodup (qo.inputs_nodup.filter _) ?_
    intro x hx hx'
    rw [List.mem_filter] at hx'
    simp only [decide_eq_true_eq] at hx'
    exact hx'.2 (hcoll x (List.mem_append_left _ hx'.1) (List.mem_append_left _ hx)).1
  have hlive : ∀ n, n ∈ composeOutputs p1 p2 f ↔ Live (composeInputs p1 p2 f) (p1.seq ++ q.seq) n := by
    intro n
    unfold composeOutputs composeInputs Live
    rw [← q1, ← q2]
    have hint : n ∈ introduced (p1.inputs ++ q.inputs.filter (fun n => n ∉ p1.outputs)) (p1.seq ++ q.seq) ↔
        n ∈ introduced p1.inputs p1.seq ∨ n ∈ introduced q.inputs q.seq := by
      unfold introduced
      simp only [List.mem_append, List.filterMap_append, List.mem_filter, decide_eq_true_eq]
      constructor
      · rintro ((h | h) | h | h)
        · exact Or.inl (Or.inl h)
        · exact Or.inr (Or.inl h.1)
        · exact Or.inl (Or.inr h)
        · exact Or.inr (Or.inr h)
      · rintro ((h | h) | h | h)
        · exact Or.inl (Or.inl h)
        · exact Or.inr (Or.inl h)
        · by_cases ho : n ∈ p1.outputs
          · have := hout1 n ho
            unfold introduced at this
            rcases List.mem_append.1 this with h' | h'
            · exact Or.inl (Or.inl h')
            · exact Or.inr (Or.inl h')
          · exact Or.inl (Or.inr ⟨h, ho⟩)
        · exact Or.inr (Or.inr h)
    rw [hint, measuredIn_append]
    simp only [List.mem_append, List.mem_filter, decide_eq_true_eq, not_or]
    rw [qo.outputs n, h1.outputs n]
    constructor
    · rintro (⟨⟨h, h'⟩, hni⟩ | ⟨h, h'⟩)
      · refine ⟨Or.inl h, h', fun hmq => ?_⟩
        have hnq := qr.measured_sub n hmq
        exact hni (hcoll n hnq h).2
      · refine ⟨Or.inr h, fun hm1 => ?_, h'⟩
        have := (hcoll n h (r1.measured_sub n hm1)).1
        exact ((h1.outputs n).1 this).2 hm1
    · rintro ⟨h | h, h', h''⟩
      · by_cases hq' : n ∈ introduced q.inputs q.seq
        · exact Or.inr ⟨hq', h''⟩
        · exact Or.inl ⟨⟨h, h'⟩, fun hni => hq' (List.mem_append_left _ hni)⟩
      · exact Or.inr ⟨h, h''⟩
  have honn : (composeOutputs p1 p2 f).Nodup := by
    unfold composeOutputs
    rw [← q1, ← q2]
    refine nodup_of_lists (h1.outputs_nodup.filter _) qo.outputs_nodup ?_
    intro x hx hx'
    rw [List.mem_filter] at hx
    simp only [decide_eq_true_eq] at hx
    exact hx.2 (hcoll x ((qo.outputs x).1 hx').1 (hout1 x hx.1)).2
  have hmsub : ((mapping.map Prod.snd).toFinset ∩ p1.outputs.toFinset) ⊆ q.inputs.toFinset := by
    intro n hn; exact List.mem_toFinset.2 ((hmerged n).1 hn).2
  have hcond : (((mapping.map Prod.snd).toFinset ∩ p1.outputs.toFinset).card = q.inputs.length ∧
      q.inputs.length = q.outputs.length) ↔ ((∀ k ∈ p2.inputs, f k ∈ p1.outputs) ∧
        p2.inputs.length = p2.outputs.length) := by
    have e1 : q.inputs.length = p2.inputs.length := by rw [q1, List.length_map]
    have e2 : q.outputs.length = p2.outputs.length := by rw [q2, List.length_map]
    rw [e2, ← List.toFinset_card_of_nodup qo.inputs_nodup]
    rw [List.toFinset_card_of_nodup qo.inputs_nodup, e1]
    refine and_congr_left fun _ => ?_
    rw [← e1, ← List.toFinset_card_of_nodup qo.inputs_nodup]
    constructor
    · intro h k hk
      have := Finset.eq_of_subset_of_card_le hmsub (le_of_eq h.symm)
      have hk' : f k ∈ q.inputs.toFinset := by
        rw [q1]; exact List.mem_toFinset.2 (List.mem_map_of_mem hk)
      rw [← this] at hk'
      exact ((hmerged _).1 hk').1
    · intro h
      congr 1
      refine Finset.Subset.antisymm hmsub ?_
      intro n hn
      have hn' := List.mem_toFinset.1 hn
      rw [hmerged]
      refine ⟨?_, hn'⟩
      rw [q1] at hn'
      obtain ⟨k, hk, rfl⟩ := List.mem_map.1 hn'
      exact h k hk
  obtain ⟨outs, houts⟩ : ∃ outs, outs = composeOutputsOf p1 p2 f preserveMapping := ⟨_, rfl⟩
  have hboth : outs.Nodup ∧ (∀ n, n ∈ outs ↔ n ∈ composeOutputs p1 p2 f) ∧
      Pattern.composeOutputNodes p1 q ((mapping.map Prod.snd).toFinset ∩ p1.outputs.toFinset) preserveMapping =
        (Except.ok outs : Except PyErr (List ℕ)) := by
    subst houts
    unfold composeOutputsOf Pattern.composeOutputNodes
    by_cases hpm : preserveMapping = true ∧ (∀ k ∈ p2.inputs, f k ∈ p1.outputs) ∧
        p2.inputs.length = p2.outputs.length
    · rw [if_pos hpm]
      have hall : ∀ n ∈ q.inputs, n ∈ p1.outputs := by
        intro n hn
        rw [q1] at hn
        obtain ⟨k, hk, rfl⟩ := List.mem_map.1 hn
        exact hpm.2.1 k hk
      have hlen : q.inputs.length = q.outputs.length := by
        rw [q1, q2, List.length_map, List.length_map]; exact hpm.2.2
      have hb : (preserveMapping && decide (((mapping.map Prod.snd).toFinset ∩ p1.outputs.toFinset).card =
          q.inputs.length ∧ q.inputs.length = q.outputs.length)) = true := by
        simp only [Bool.and_eq_true, decide_eq_true_eq]
        exact ⟨hpm.1, hcond.2 hpm.2⟩
      rw [if_pos hb]
      unfold composeOutputsPreserved
      rw [← q1, ← q2]
      have hnotq : ∀ a ∈ p1.outputs, a ∉ q.inputs → a ∉ q.outputs := by
        intro a ha hna hao
        exact hna (hcoll a ((qo.outputs a).1 hao).1 (hout1 a ha)).2
      refine ⟨?_, ?_, ?_⟩
      · refine List.Nodup.map_on ?_ h1.outputs_nodup
        intro a ha b hb hab
        by_cases ha' : a ∈ q.inputs
        · obtain ⟨i, hi, hi', ei, li⟩ := lookup_zip_of_mem hlen ha'
          by_cases hb' : b ∈ q.inputs
          · obtain ⟨j, hj, hj', ej, lj⟩ := lookup_zip_of_mem hlen hb'
            rw [li, lj] at hab
            simp only [Option.getD_some] at hab
            have := (List.Nodup.getElem_inj_iff qo.outputs_nodup).1 hab
            subst this
            rw [← ei, ← ej]
          · rw [li, lookup_zip_of_notMem hb'] at hab
            simp only [Option.getD_some, Option.getD_none] at hab
            exact absurd (hab ▸ List.getElem_mem hi') (hnotq b hb hb')
        · rw [lookup_zip_of_notMem ha'] at hab
          by_cases hb' : b ∈ q.inputs
          · obtain ⟨j, hj, hj', ej, lj⟩ := lookup_zip_of_mem hlen hb'
            rw [lj] at hab
            simp only [Option.getD_some, Option.getD_none] at hab
            exact absurd (hab ▸ List.getElem_mem hj') (hnotq a ha ha')
          · rw [lookup_zip_of_notMem hb'] at hab
            exact hab
      · intro n
        unfold composeOutputs
        rw [← q1, ← q2]
        simp only [List.mem_append, List.mem_filter, List.mem_map, decide_eq_true_eq]
        constructor
        · rintro ⟨a, ha, rfl⟩
          by_cases ha' : a ∈ q.inputs
          · obtain ⟨i, hi, hi', ei, li⟩ := lookup_zip_of_mem hlen ha'
            rw [li]; right; exact List.getElem_mem hi'
          · rw [lookup_zip_of_notMem ha']; left; exact ⟨ha, ha'⟩
        · rintro (⟨ha, ha'⟩ | h)
          · exact ⟨n, ha, by rw [lookup_zip_of_notMem ha']; rfl⟩
          · obtain ⟨i, hi, rfl⟩ := List.getElem_of_mem h
            have hi2 : i < q.inputs.length := by omega
            have hm' : q.inputs[i] ∈ q.inputs := List.getElem_mem hi2
            refine ⟨q.inputs[i], hall _ hm', ?_⟩
            obtain ⟨j, hj, hj', ej, lj⟩ := lookup_zip_of_mem hlen hm'
            have := (List.Nodup.getElem_inj_iff qo.inputs_nodup).1 ej
            subst this
            rw [lj]; rfl
      · apply mapM_ok_map
        intro n hn
        by_cases hn' : n ∈ q.inputs
        · rw [if_pos ((hmerged n).2 ⟨hn, hn'⟩), foldl_set_get?]
          · obtain ⟨j, hj, hj', ej, lj⟩ := lookup_zip_of_mem hlen hn'
            rw [lj]; rfl
          · rw [List.map_fst_zip (by omega)]; exact qo.inputs_nodup
        · rw [if_neg (fun h => hn' ((hmerged n).1 h).2), lookup_zip_of_notMem hn']; rfl
    · rw [if_neg hpm]
      have hb : ¬ (preserveMapping && decide (((mapping.map Prod.snd).toFinset ∩ p1.outputs.toFinset).card =
          q.inputs.length ∧ q.inputs.length = q.outputs.length)) = true := by
        simp only [Bool.and_eq_true, decide_eq_true_eq]
        rintro ⟨a, b⟩; exact hpm ⟨a, hcond.1 b⟩
      rw [if_neg hb]
      exact ⟨honn, fun _ => Iff.rfl, by rw [eout]⟩
  obtain ⟨honn', hmem', hres⟩ := hboth
  have hlive' : ∀ n, n ∈ outs ↔ Live (composeInputs p1 p2 f) (p1.seq ++ q.seq) n :=
    fun n => (hmem' n).trans (hlive n)
  obtain ⟨c1, c2, -⟩ := C08_count (composeInputs p1 p2 f) (p1.seq ++ q.seq)
  have hnew : Pattern.new (composeInputs p1 p2 f) (p1.seq ++ q.seq) (some (outs)) =
      .ok { (Pattern.empty (composeInputs p1 p2 f)).extend (p1.seq ++ q.seq) with
        outputs := outs } := by
    unfold Pattern.new Pattern.reorderOutputNodes
    have : assertPermutation ((Pattern.empty (composeInputs p1 p2 f)).extend (p1.seq ++ q.seq)).outputs
        (outs) = .ok () := by
      rw [assertPermutation_ok_iff]
      refine ⟨?_, honn'⟩
      rw [C08_outputs _ hinn _ hrun]
      ext n
      simp only [List.mem_toFinset, List.mem_filter, decide_eq_true_eq]
      exact hlive' n
    simp only [this]; rfl
  refine ⟨{ (Pattern.empty (composeInputs p1 p2 f)).extend (p1.seq ++ q.seq) with
      outputs := outs }, d, ?_, happ, hinj, hfresh, ?_, c2, houts, ?_, ?_⟩
  · unfold Pattern.compose
    have k1 : ∀ k ∈ PyDict.keys mapping, k ∈ p2.nodes := fun k hk => (p2.mem_nodes k).2 (hok.keys k hk)
    have k2 : mapping.length = (mapping.map Prod.snd).toFinset.card := by
      have := (toFinset_card_eq_length_iff (mapping.map Prod.snd)).2 hok.inj
      rwa [List.length_map] at this
    have k3 : (mapping.map Prod.snd).toFinset ∩ (p1.nodes \ p1.outputs.toFinset) = ∅ := by
      rw [Finset.eq_empty_iff_forall_notMem]
      intro n hn
      simp only [Finset.mem_inter, List.mem_toFinset, List.mem_map, Finset.mem_sdiff] at hn
      obtain ⟨⟨kv, hkv, rfl⟩, hn1, hn2⟩ := hn
      exact hn2 (hok.unmeasured kv hkv ((p1.mem_nodes _).1 hn1))
    have k4 : ∀ kv ∈ mapping, ¬ (kv.2 ∈ p1.outputs.toFinset ∧ kv.1 ∉ p2.inputs.toFinset) := by
      rintro kv hkv ⟨a, b⟩
      exact b (List.mem_toFinset.2 (hok.merged kv hkv (List.mem_toFinset.1 a)))
    simp only []
    rw [if_neg (not_not.2 k1), if_neg (fun h => h k2), if_neg (fun h => h k3), if_neg (not_not.2 k4)]
    have hrq : p2.reindex (some d) = .ok q := hq
    simp only [hs, hd, hrq, pure_bind, bind, Except.bind, pure, Except.pure]
    rw [ein]
    simp only [hres, hnew]
  · simp only [c1]; rw [q3]
  · rw [checkRunnability_iff]; simp only [c1, c2]; exact hrun
  · exact ⟨by simp only [c2]; exact hinn, honn', fun n => by simp only [c1, c2]; exact hlive' n⟩

/-- **C22** The map computed by a composition in each branch is the map of the first pattern followed
by that of the (renamed) second one. -/
theorem C22_semantics (p1 p2 : Pattern) (r2 : p2.checkRunnability = .ok ()) (p : Pattern) (f : ℕ → ℕ)
    (hp : p.seq = p1.seq ++ p2.seq.map (Command.reindex f))
    (g : ℕ → ℕ) (hg : Injective g) (hgf : ∀ k ∈ introduced p2.inputs p2.seq, g k = f k)
    (r : ℕ → Bool) (ψ φ : QState) (hφ : semCmds r p1.seq ψ = ren g φ) :
    semCmds r p.seq ψ = ren g (semCmds (r ∘ g) p2.seq φ) := by
  rw [checkRunnability_iff] at r2
  rw [hp, semCmds_append, hφ]
  exact semCmds_reindex hg _ (fun c hc k hk => (hgf k (r2.mentions_introduced c hc k hk)).symm) r φ

/-- **C22** Negation witness for the unconditional claim: composing two empty patterns raises. -/
theorem C22_empty_raises :
    (Pattern.empty []).compose (Pattern.empty []) [] false = .error .valueError := rfl

/-- The requirements are met when feeding the output of `stdExample` into itself. -/
example : ComposeOk stdExample stdExample [(0, 2)] := by
  refine ⟨?_, by decide, ?_, ?_, Or.inr (by decide)⟩
  · intro k hk
    simp only [PyDict.keys, List.map_cons, List.map_nil, List.mem_singleton] at hk
    subst hk
    exact (by decide : (0 : ℕ) ∈ [0, 1, 2])
  · intro kv hkv _
    simp only [List.mem_singleton] at hkv; subst hkv
    exact (by decide : (2 : ℕ) ∈ [2])
  · intro kv hkv _
    simp only [List.mem_singleton] at hkv; subst hkv
    exact (by decide : (0 : ℕ) ∈ [0])

end Graphix
