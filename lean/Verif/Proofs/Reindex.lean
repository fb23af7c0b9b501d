import Verif.Proofs.Runnable
import Verif.Props.Standardize

/-! Helper lemmas on renaming and composition. -/

namespace Graphix

open Function

/-- The state `ψ` with its qubits renamed along `f` (qubit `n` is now called `f n`). -/
def ren (f : ℕ → ℕ) (ψ : QState) : QState := fun b => ψ (b ∘ f)

theorem update_comp_inj {f : ℕ → ℕ} (hf : Injective f) (b : Basis) (n : ℕ) (j : Bool) :
    (update b (f n) j) ∘ f = update (b ∘ f) n j := by
  funext k
  by_cases h : k = n
  · subst h; simp
  · have : f k ≠ f n := fun e => h (hf e)
    simp [update_of_ne this, update_of_ne h]

theorem op1_ren {f : ℕ → ℕ} (hf : Injective f) (U : Mat2) (n : ℕ) (ψ : QState) :
    op1 U (f n) (ren f ψ) = ren f (op1 U n ψ) := by
  funext b; simp only [op1, ren, update_comp_inj hf]; rfl

theorem cz_ren (f : ℕ → ℕ) (u v : ℕ) (ψ : QState) :
    cz (f u) (f v) (ren f ψ) = ren f (cz u v ψ) := rfl

theorem prep_ren (f : ℕ → ℕ) (n : ℕ) (w : Bool → ℂ) (ψ : QState) :
    prep (f n) w (ren f ψ) = ren f (prep n w ψ) := rfl

theorem projOut_ren {f : ℕ → ℕ} (hf : Injective f) (n : ℕ) (w : Bool → ℂ) (ψ : QState) :
    projOut (f n) w (ren f ψ) = ren f (projOut n w ψ) := by
  rw [projOut_eq_op1, projOut_eq_op1, op1_ren hf]

theorem parity_image {f : ℕ → ℕ} (hf : Injective f) (r : ℕ → Bool) (s : Finset ℕ) :
    parity r (s.image f) = parity (r ∘ f) s := by
  unfold parity
  have : (s.image f).filter (fun n => r n = true) = (s.filter (fun n => (r ∘ f) n = true)).image f := by
    ext k; simp only [Finset.mem_filter, Finset.mem_image, comp_apply]
    constructor
    · rintro ⟨⟨a, ha, rfl⟩, h⟩; exact ⟨a, ⟨ha, h⟩, rfl⟩
    · rintro ⟨a, ⟨ha, h⟩, rfl⟩; exact ⟨⟨a, ha, rfl⟩, h⟩
  rw [this, Finset.card_image_of_injective _ hf]

/-- Nodes on which the effect of a command depends (`S` has no effect). -/
def Command.mentions : Command → Finset ℕ
  | .N n _ => {n}
  | .M n _ s t => {n} ∪ s ∪ t
  | .E u v => {u, v}
  | .C n _ => {n}
  | .X n d => {n} ∪ d
  | .Z n d => {n} ∪ d
  | .S _ _ => ∅
  | .T => ∅

theorem image_congr_on {f g : ℕ → ℕ} {s : Finset ℕ} (h : ∀ k ∈ s, f k = g k) : s.image f = s.image g :=
  Finset.image_congr (fun k hk => h k hk)

theorem sem_reindex {f g : ℕ → ℕ} (hg : Injective g) (c : Command) (h : ∀ k ∈ c.mentions, f k = g k)
    (r : ℕ → Bool) (ψ : QState) :
    (c.reindex f).sem r (ren g ψ) = ren g (c.sem (r ∘ g) ψ) := by
  cases c with
  | N n st =>
    simp only [Command.mentions, Finset.mem_singleton, forall_eq] at h
    simp only [Command.reindex, Command.sem, h, prep_ren]
  | M n m s t =>
    have hn : f n = g n := h n (by simp [Command.mentions])
    have hs : s.image f = s.image g := image_congr_on (fun k hk => h k (by simp [Command.mentions, hk]))
    have ht : t.image f = t.image g := image_congr_on (fun k hk => h k (by simp [Command.mentions, hk]))
    simp only [Command.reindex, Command.sem, hn, hs, ht, parity_image hg, op1_ren hg, projOut_ren hg,
      comp_apply]
  | E u v =>
    have hu : f u = g u := h u (by simp [Command.mentions])
    have hv : f v = g v := h v (by simp [Command.mentions])
    simp only [Command.reindex, Command.sem, hu, hv, cz_ren]
  | C n c =>
    have hn : f n = g n := h n (by simp [Command.mentions])
    simp only [Command.reindex, Command.sem, hn, op1_ren hg]
  | X n d =>
    have hn : f n = g n := h n (by simp [Command.mentions])
    have hd : d.image f = d.image g := image_congr_on (fun k hk => h k (by simp [Command.mentions, hk]))
    simp only [Command.reindex, Command.sem, hn, hd, parity_image hg, op1_ren hg]
  | Z n d =>
    have hn : f n = g n := h n (by simp [Command.mentions])
    have hd : d.image f = d.image g := image_congr_on (fun k hk => h k (by simp [Command.mentions, hk]))
    simp only [Command.reindex, Command.sem, hn, hd, parity_image hg, op1_ren hg]
  | S n d => rfl
  | T => rfl

theorem semCmds_reindex {f g : ℕ → ℕ} (hg : Injective g) (l : List Command)
    (h : ∀ c ∈ l, ∀ k ∈ c.mentions, f k = g k) (r : ℕ → Bool) (ψ : QState) :
    semCmds r (l.map (Command.reindex f)) (ren g ψ) = ren g (semCmds (r ∘ g) l ψ) := by
  induction l generalizing ψ with
  | nil => rfl
  | cons c l ih =>
    simp only [List.map_cons, semCmds_cons]
    rw [sem_reindex hg c (h c (by simp)), ih (fun c hc => h c (by simp [hc]))]

/-- In a runnable sequence all the nodes mentioned are introduced at some point. -/
theorem Runnable.mentions_introduced {inputs : List ℕ} {l : List Command} (h : Runnable inputs l) :
    ∀ c ∈ l, ∀ k ∈ c.mentions, k ∈ introduced inputs l := by
  intro c hc k hk
  obtain ⟨pre, post, rfl⟩ := List.append_of_mem hc
  have ha := h pre c post rfl
  have hms := (h.prefix).measured_sub
  have sub : ∀ {k}, k ∈ introduced inputs pre → k ∈ introduced inputs (pre ++ c :: post) := by
    intro k hk; rw [introduced_append]; exact List.mem_append_left _ hk
  cases c with
  | N n st =>
    simp only [Command.mentions, Finset.mem_singleton] at hk
    subst hk
    rw [introduced_append]; exact List.mem_append_right _ (by simp [Command.prepared?])
  | M n m s t =>
    simp only [Command.mentions, Finset.mem_union, Finset.mem_singleton] at hk
    rcases hk with (rfl | hk) | hk
    · exact sub ha.1.1
    · exact sub (hms k (ha.2.1 k hk))
    · exact sub (hms k (ha.2.2 k hk))
  | E u v =>
    simp only [Command.mentions, Finset.mem_insert, Finset.mem_singleton] at hk
    rcases hk with rfl | rfl
    · exact sub ha.1.1
    · exact sub ha.2.1
  | C n g =>
    simp only [Command.mentions, Finset.mem_singleton] at hk
    subst hk; exact sub ha.1
  | X n d =>
    simp only [Command.mentions, Finset.mem_union, Finset.mem_singleton] at hk
    rcases hk with rfl | hk
    · exact sub ha.1.1
    · exact sub (hms k (ha.2 k hk))
  | Z n d =>
    simp only [Command.mentions, Finset.mem_union, Finset.mem_singleton] at hk
    rcases hk with rfl | hk
    · exact sub ha.1.1
    · exact sub (hms k (ha.2 k hk))
  | S n d => simp [Command.mentions] at hk
  | T => simp [Command.mentions] at hk

theorem prepared_reindex (f : ℕ → ℕ) (l : List Command) :
    (l.map (Command.reindex f)).filterMap Command.prepared? = (l.filterMap Command.prepared?).map f := by
  induction l with
  | nil => rfl
  | cons c l ih => cases c <;> simp [List.filterMap_cons, Command.reindex, Command.prepared?, ih]

theorem measured_reindex (f : ℕ → ℕ) (l : List Command) :
    measuredIn (l.map (Command.reindex f)) = (measuredIn l).map f := by
  unfold measuredIn
  induction l with
  | nil => rfl
  | cons c l ih => cases c <;> simp [List.filterMap_cons, Command.reindex, Command.measured?, ih]

theorem introduced_reindex (f : ℕ → ℕ) (inputs : List ℕ) (l : List Command) :
    introduced (inputs.map f) (l.map (Command.reindex f)) = (introduced inputs l).map f := by
  unfold introduced; rw [prepared_reindex, List.map_append]

/-- Renaming injectively on the introduced nodes keeps a sequence runnable. -/
theorem Runnable.reindex {inputs : List ℕ} {l : List Command} (h : Runnable inputs l) {f : ℕ → ℕ}
    (hf : ∀ a ∈ introduced inputs l, ∀ b ∈ introduced inputs l, f a = f b → a = b) :
    Runnable (inputs.map f) (l.map (Command.reindex f)) := by
  intro pre c post hl
  obtain ⟨pre', c', post', rfl, rfl, rfl, rfl⟩ : ∃ pre' c' post', l = pre' ++ c' :: post' ∧
      pre = pre'.map (Command.reindex f) ∧ c = c'.reindex f ∧ post = post'.map (Command.reindex f) := by
    obtain ⟨pre', l2, h1, h2, h3⟩ := List.map_eq_append_iff.1 hl
    obtain ⟨c', post', h4, h5, h6⟩ := List.map_eq_cons_iff.1 h3
    exact ⟨pre', c', post', by rw [h1, h4], h2.symm, h5.symm, h6.symm⟩
  have ha := h pre' c' post' rfl
  have hms := (h.prefix).measured_sub
  have sub : ∀ {k}, k ∈ introduced inputs pre' → k ∈ introduced inputs (pre' ++ c' :: post') := by
    intro k hk; rw [introduced_append]; exact List.mem_append_left _ hk
  have hmem : ∀ {k}, k ∈ introduced inputs (pre' ++ c' :: post') →
      f k ∈ introduced (inputs.map f) (pre'.map (Command.reindex f)) → k ∈ introduced inputs pre' := by
    intro k hk hfk
    rw [introduced_reindex] at hfk
    obtain ⟨k', hk', he⟩ := List.mem_map.1 hfk
    exact (hf k' (sub hk') k hk he) ▸ hk'
  have hlive : ∀ {k}, Live inputs pre' k →
      Live (inputs.map f) (pre'.map (Command.reindex f)) (f k) := by
    intro k hk
    refine ⟨by rw [introduced_reindex]; exact List.mem_map_of_mem hk.1, ?_⟩
    rw [measured_reindex]
    intro hfk
    obtain ⟨k', hk', he⟩ := List.mem_map.1 hfk
    exact hk.2 ((hf k' (sub (hms k' hk')) k (sub hk.1) he) ▸ hk')
  have hdom : ∀ {d : Finset ℕ}, (∀ k ∈ d, k ∈ measuredIn pre') →
      ∀ k ∈ d.image f, k ∈ measuredIn (pre'.map (Command.reindex f)) := by
    intro d hd k hk
    obtain ⟨k', hk', rfl⟩ := Finset.mem_image.1 hk
    rw [measured_reindex]; exact List.mem_map_of_mem (hd k' hk')
  cases c' with
  | N n st =>
    intro hfn
    exact ha (hmem (by rw [introduced_append]; exact List.mem_append_right _ (by simp [Command.prepared?])) hfn)
  | M n m s t => exact ⟨hlive ha.1, hdom ha.2.1, hdom ha.2.2⟩
  | E u v => exact ⟨hlive ha.1, hlive ha.2⟩
  | C n g => exact hlive ha
  | X n d => exact ⟨hlive ha.1, hdom ha.2⟩
  | Z n d => exact ⟨hlive ha.1, hdom ha.2⟩
  | S n d => trivial
  | T => trivial

theorem Pattern.mem_nodes (p : Pattern) (n : ℕ) : n ∈ p.nodes ↔ n ∈ introduced p.inputs p.seq := by
  unfold Pattern.nodes introduced; simp

/-! ### `node_mapping` -/

theorem nextFree_spec (used : Finset ℕ) (c : ℕ) : c ≤ nextFree used c ∧ nextFree used c ∉ used := by
  induction c using nextFree.induct (used := used) with
  | case1 c h ih => rw [nextFree, if_pos h]; exact ⟨by omega, ih.2⟩
  | case2 c h => rw [nextFree, if_neg h]; exact ⟨le_refl _, h⟩

/-- Values of a dict: those of `used`, or fresh and below the next candidate. -/
structure MapInv (used : Finset ℕ) (start : ℕ) (mapping d : PyDict ℕ ℕ) (candidate : ℕ) : Prop where
  nodup : (PyDict.keys d).Nodup
  ext : ∀ k ∈ PyDict.keys mapping, PyDict.get? d k = PyDict.get? mapping k
  fresh : ∀ k v, PyDict.get? d k = some v → k ∉ PyDict.keys mapping →
    v ∉ used ∧ start ≤ v ∧ v < candidate
  inj : ∀ k k' v, PyDict.get? d k = some v → PyDict.get? d k' = some v → k = k'
  le : start ≤ candidate
  keys : ∀ k ∈ PyDict.keys mapping, k ∈ PyDict.keys d

theorem nodeMappingLoop_spec {used preserves : Finset ℕ} {start : ℕ} {mapping : PyDict ℕ ℕ}
    (hv : ∀ k v, PyDict.get? mapping k = some v → v ∈ used) (l : List ℕ) :
    ∀ {d : PyDict ℕ ℕ} {candidate : ℕ}, MapInv used start mapping d candidate →
    ∃ candidate', MapInv used start mapping (nodeMappingLoop used preserves l d candidate) candidate' ∧
      ∀ k, k ∈ PyDict.keys (nodeMappingLoop used preserves l d candidate) ↔
        k ∈ PyDict.keys d ∨ (k ∈ l ∧ k ∉ preserves) := by
  induction l with
  | nil => intro d c h; exact ⟨c, h, by simp [nodeMappingLoop]⟩
  | cons n l ih =>
    intro d c h
    unfold nodeMappingLoop
    by_cases hc : PyDict.contains d n || decide (n ∈ preserves)
    · rw [if_pos hc]
      obtain ⟨c', h1, h2⟩ := ih h
      refine ⟨c', h1, fun k => ?_⟩
      rw [h2 k]
      simp only [Bool.or_eq_true, decide_eq_true_eq, PyDict.contains_iff] at hc
      constructor
      · rintro (h | ⟨h, h'⟩)
        · exact Or.inl h
        · exact Or.inr ⟨by simp [h], h'⟩
      · rintro (h | ⟨h, h'⟩)
        · exact Or.inl h
        · rcases List.mem_cons.1 h with rfl | h
          · rcases hc with hc | hc
            · exact Or.inl hc
            · exact absurd hc h'
          · exact Or.inr ⟨h, h'⟩
    · rw [if_neg hc]
      simp only [Bool.or_eq_true, decide_eq_true_eq, PyDict.contains_iff, not_or] at hc
      obtain ⟨f1, f2⟩ := nextFree_spec used c
      have hnm : n ∉ PyDict.keys mapping := fun hn => hc.1 (h.keys n hn)
      have hinv : MapInv used start mapping (d.set n (nextFree used c)) (nextFree used c + 1) := by
        refine ⟨PyDict.keys_set_nodup h.nodup _ _, ?_, ?_, ?_, by have := h.le; omega, ?_⟩
        · intro k hk
          rw [PyDict.get?_set_ne _ _ (by rintro rfl; exact hnm hk)]; exact h.ext k hk
        · intro k v hkv hk
          rw [PyDict.get?_set] at hkv
          split at hkv
          · cases hkv; have := h.le; exact ⟨f2, by omega, by omega⟩
          · have := h.fresh k v hkv hk; exact ⟨this.1, this.2.1, by omega⟩
        · -- values already present differ from the fresh one
          have hne : ∀ k v, PyDict.get? d k = some v → v ≠ nextFree used c := by
            intro k v hkv
            by_cases hk : k ∈ PyDict.keys mapping
            · rw [h.ext k hk] at hkv; intro e; exact f2 (e ▸ hv k v hkv)
            · have := h.fresh k v hkv hk; omega
          intro k k' v hk hk'
          rw [PyDict.get?_set] at hk hk'
          split at hk <;> split at hk'
          · subst_vars; rfl
          · cases hk; exact absurd rfl (hne k' _ hk')
          · cases hk'; exact absurd rfl (hne k _ hk)
          · exact h.inj k k' v hk hk'
        · intro k hk; rw [PyDict.mem_keys_set]; exact Or.inr (h.keys k hk)
      obtain ⟨c', h1, h2⟩ := ih hinv
      refine ⟨c', h1, fun k => ?_⟩
      rw [h2 k, PyDict.mem_keys_set]
      simp only [List.mem_cons]
      constructor
      · rintro ((rfl | h) | ⟨h, h'⟩)
        · exact Or.inr ⟨Or.inl rfl, hc.2⟩
        · exact Or.inl h
        · exact Or.inr ⟨Or.inr h, h'⟩
      · rintro (h | ⟨rfl | h, h'⟩)
        · exact Or.inl (Or.inr h)
        · exact Or.inl (Or.inl rfl)
        · exact Or.inr ⟨h, h'⟩

/-- Every function injective on a finite set agrees there with an injective function. -/
theorem exists_injective_extension (f : ℕ → ℕ) (S : Finset ℕ)
    (hf : ∀ a ∈ S, ∀ b ∈ S, f a = f b → a = b) : ∃ g : ℕ → ℕ, Injective g ∧ ∀ k ∈ S, g k = f k := by
  refine ⟨fun k => if k ∈ S then f k else S.sup f + 1 + k, ?_, fun k hk => by simp [hk]⟩
  intro a b h
  have hle : ∀ k ∈ S, f k ≤ S.sup f := fun k hk => Finset.le_sup (f := f) hk
  simp only at h
  split at h <;> split at h
  · exact hf a ‹_› b ‹_› h
  · have := hle a ‹_›; omega
  · have := hle b ‹_›; omega
  · omega

end Graphix
