import Verif.Model.Mc
import Verif.Props.Pattern
import Verif.Props.RemovePauli

/-!
# C54: the two methods of signal shifting
-/

namespace Graphix
namespace Pattern

open scoped symmDiff

/-- No command of the sequence is a signal. -/
def NoSignal (l : List Command) : Prop := ∀ c ∈ l, ∀ n d, c ≠ .S n d

/-! ### The loop -/

theorem findOp_last_none {l : List Command} (h : NoSignal l) : findOp .S l true 0 = none := by
  unfold findOp
  simp only [if_true]
  rw [List.filter_eq_nil_iff.2]
  · rfl
  · intro i hi
    cases hc : l[i]? with
    | none => simp
    | some c =>
      have := h c (List.mem_of_getElem? hc)
      cases c <;> simp_all [kindOf]

theorem findOp_last {l l' : List Command} {n : ℕ} {d : Finset ℕ} (h : NoSignal l') : findOp .S (l ++ .S n d :: l') true 0 = some l.length := by
  unfold findOp
  simp only [if_true]
  have hr : (List.range (l ++ .S n d :: l').length).reverse = ((List.range l'.length).map (fun x => l.length + 1 + x)).reverse ++ l.length :: (List.range l.length).reverse := by
    rw [show (l ++ .S n d :: l').length = l.length + 1 + l'.length by simp; omega, List.range_add, List.range_succ]
    simp
  rw [hr, List.filter_append, List.filter_eq_nil_iff.2, List.nil_append, List.filter_cons_of_pos]
  · rfl
  · simp [kindOf]
  · intro i hi
    simp only [List.mem_reverse, List.mem_map, List.mem_range] at hi
    obtain ⟨j, hj, rfl⟩ := hi
    have : (l ++ .S n d :: l')[l.length + 1 + j]? = l'[j]? := by
      rw [List.getElem?_append_right (by omega), show l.length + 1 + j - l.length = j + 1 by omega, List.getElem?_cons_succ]
    rw [this]
    cases hc : l'[j]? with
    | none => simp
    | some c =>
      have := h c (List.mem_of_getElem? hc)
      cases c <;> simp_all [kindOf]

theorem insertIdx_middle (l m : List Command) (x : Command) : (l ++ m).insertIdx l.length x = l ++ x :: m := by
  induction l with
  | nil => simp
  | cons a l ih => simp [ih]

theorem commuteS_eq (l l' : List Command) (n : ℕ) (d : Finset ℕ) (c : Command) :
    commuteS (l ++ .S n d :: c :: l') l.length = (l ++ [shiftCommand n d c]) ++ .S n d :: l' := by
  unfold commuteS commuteWithFollowing
  have h1 : (l ++ .S n d :: c :: l')[l.length]? = some (.S n d) := by simp
  have h2 : (l ++ .S n d :: c :: l')[l.length + 1]? = some c := by
    rw [List.getElem?_append_right (by omega)]; simp
  rw [h1, h2]
  simp only []
  have h3 : (l ++ .S n d :: c :: l').set (l.length + 1) (shiftCommand n d c) = l ++ .S n d :: shiftCommand n d c :: l' := by
    rw [List.set_append_right _ _ (by omega)]; simp
  rw [h3]
  have h4 : (l ++ .S n d :: shiftCommand n d c :: l')[l.length + 1]? = some (shiftCommand n d c) := by
    rw [List.getElem?_append_right (by omega)]; simp
  rw [h4]
  simp only []
  rw [List.eraseIdx_append_of_length_le (by omega)]
  simp [insertIdx_middle]

theorem mcLoop_push (n : ℕ) (d : Finset ℕ) (fuel : ℕ) : ∀ (l' l : List Command),
    mcLoop (l'.length + 1 + fuel) (l ++ .S n d :: l') (some l.length) =
      mcLoop fuel (l ++ l'.map (shiftCommand n d)) (findOp .S (l ++ l'.map (shiftCommand n d)) true 0) := by
  intro l'
  induction l' with
  | nil =>
    intro l
    rw [show ([] : List Command).length + 1 + fuel = fuel + 1 by simp; omega]
    simp [mcLoop, List.eraseIdx_append_of_length_le]
  | cons c l' ih =>
    intro l
    rw [show (c :: l').length + 1 + fuel = (l'.length + 1 + fuel) + 1 by simp; omega]
    conv_lhs => unfold mcLoop
    rw [if_neg (by simp), commuteS_eq]
    have := ih (l ++ [shiftCommand n d c])
    rw [List.length_append, List.length_singleton] at this
    rw [this]
    simp

/-- The result of moving all the signals to the end, from the last one to the first one. -/
def pushAll : List Command → List Command
  | [] => []
  | .S n d :: l => (pushAll l).map (shiftCommand n d)
  | c :: l => c :: pushAll l

theorem pushAll_noSignal (l : List Command) : NoSignal (pushAll l) := by
  fun_induction pushAll l with
  | case1 => simp [NoSignal]
  | case2 n d l ih =>
    intro c hc k e
    obtain ⟨c', h1, rfl⟩ := List.mem_map.1 hc
    have := ih c' h1
    cases c' <;> simp_all [shiftCommand]
  | case3 c l hne ih =>
    intro c' hc k e
    rcases List.mem_cons.1 hc with rfl | hc
    · rintro rfl; exact hne _ _ rfl
    · exact ih c' hc k e

theorem mcLoop_spec : ∀ (l l' : List Command), NoSignal l' → pushAll l' = l' → ∃ k, ∀ fuel ≥ k,
    mcLoop fuel (l ++ l') (findOp .S (l ++ l') true 0) = some (pushAll (l ++ l')) := by
  intro l
  induction l using List.reverseRecOn with
  | nil =>
    intro l' h h'
    refine ⟨0, fun fuel _ => ?_⟩
    rw [List.nil_append, findOp_last_none h, h']
    cases fuel <;> rfl
  | append_singleton l c ih =>
    intro l' h h'
    have hp : ∀ (a b : List Command), pushAll b = b → pushAll (a ++ b) = pushAll (a ++ pushAll b) := fun a b hb => by rw [hb]
    by_cases hc : ∃ n d, c = .S n d
    · obtain ⟨n, d, rfl⟩ := hc
      have hmap : NoSignal (l'.map (shiftCommand n d)) := by
        intro c hc k e
        obtain ⟨c', h1, rfl⟩ := List.mem_map.1 hc
        have := h c' h1
        cases c' <;> simp_all [shiftCommand]
      have hno : ∀ m : List Command, NoSignal m → pushAll m = m := by
        intro m hm
        induction m with
        | nil => rfl
        | cons c m ih =>
          have := hm c (by simp)
          cases c <;> simp_all [pushAll, NoSignal]
      have happ : ∀ a : List Command, pushAll (a ++ (.S n d :: l')) = pushAll (a ++ l'.map (shiftCommand n d)) := by
        intro a
        induction a with
        | nil => rw [List.nil_append, List.nil_append, pushAll, h', hno _ hmap]
        | cons c a ih => cases c <;> simp only [List.cons_append, pushAll, ih]
      obtain ⟨k, hk⟩ := ih (l'.map (shiftCommand n d)) hmap (hno _ hmap)
      refine ⟨l'.length + 1 + k, fun fuel hf => ?_⟩
      obtain ⟨j, rfl⟩ := Nat.exists_eq_add_of_le (Nat.le_trans (Nat.le_add_right _ k) hf)
      rw [List.append_assoc, List.singleton_append, findOp_last h, mcLoop_push, hk j (by omega), happ]
    · have hns : NoSignal (c :: l') := by
        intro c' hc'
        rcases List.mem_cons.1 hc' with rfl | hc'
        · exact fun n d he => hc ⟨n, d, he⟩
        · exact h c' hc'
      have : pushAll (c :: l') = c :: l' := by
        cases c <;> simp_all [pushAll]
      rw [List.append_assoc, List.singleton_append]
      exact ih (c :: l') hns this

/-! ### The direct method computes the same domains -/

theorem parity_ext {A B : Finset ℕ} (h : ∀ r, parity r A = parity r B) : A = B := by
  have key : ∀ (C : Finset ℕ) k, parity (fun n => decide (n = k)) C = decide (k ∈ C) := by
    intro C k
    unfold parity
    by_cases hk : k ∈ C
    · rw [Finset.filter_congr (q := fun n => n = k) (by simp), Finset.filter_eq', if_pos hk]
      simp [hk]
    · rw [Finset.filter_congr (q := fun n => n = k) (by simp), Finset.filter_eq', if_neg hk]
      simp [hk]
  ext k
  have := h fun n => decide (n = k)
  rw [key, key] at this
  simpa using this

theorem expandDomain_congr {sig sig' : SignalDict} (h : ∀ n, SignalDict.at sig n = SignalDict.at sig' n) (e : Finset ℕ) :
    expandDomain sig e = expandDomain sig' e := by
  refine parity_ext fun r => ?_
  rw [parity_expandDomain, parity_expandDomain, funext h]

theorem expandDomain_nil (e : Finset ℕ) : expandDomain [] e = e := by
  refine parity_ext fun r => ?_
  rw [parity_expandDomain]
  apply parity_congr
  intro n _
  simp [shiftBranch, SignalDict.at, PyDict.get?, parity_empty]

theorem expandDomain_empty (sig : SignalDict) : expandDomain sig ∅ = ∅ :=
  parity_ext fun r => by rw [parity_expandDomain, parity_empty, parity_empty]

theorem expandDomain_symmDiff (sig : SignalDict) (d e : Finset ℕ) : expandDomain sig (d ∆ e) = expandDomain sig d ∆ expandDomain sig e :=
  parity_ext fun r => by rw [parity_expandDomain, parity_symmDiff, parity_symmDiff, parity_expandDomain, parity_expandDomain]

/-- Adding a signal `d` for the node `n`, expanded, is the same as substituting it first. -/
theorem expandDomain_shift {sig sig' : SignalDict} {n : ℕ} {d : Finset ℕ} (hn : SignalDict.at sig n = ∅)
    (h : ∀ k, SignalDict.at sig' k = if n = k then expandDomain sig d else SignalDict.at sig k) (e : Finset ℕ) :
    expandDomain sig' e = expandDomain sig (shiftDomain n d e) := by
  refine parity_ext fun r => ?_
  rw [parity_expandDomain, parity_expandDomain]
  set R := shiftBranch (SignalDict.at sig) r with hR
  have h1 : ∀ k, k ≠ n → shiftBranch (SignalDict.at sig') r k = R k := by
    intro k hk
    simp only [hR, shiftBranch, h, if_neg (Ne.symm hk)]
  have h2 : shiftBranch (SignalDict.at sig') r n = Bool.xor (R n) (parity R d) := by
    simp only [hR, shiftBranch, h, if_true, hn, parity_empty, parity_expandDomain]
    simp [shiftBranch]
  unfold shiftDomain
  split
  · rename_i hne
    rw [parity_symmDiff]
    have he : e = {n} ∆ (e.erase n) := by
      ext k
      by_cases hk : k = n
      · subst hk; simp [Finset.mem_symmDiff, hne]
      · simp [Finset.mem_symmDiff, hk]
    rw [he, parity_symmDiff, parity_symmDiff, parity_singleton, parity_singleton, h2,
      parity_congr (r := shiftBranch (SignalDict.at sig') r) (r' := R) fun k hk => h1 k (Finset.ne_of_mem_erase hk)]
    cases R n <;> cases parity R d <;> cases parity R (e.erase n) <;> rfl
  · rename_i hne
    exact parity_congr fun k hk => h1 k (by rintro rfl; exact hne hk)

/-- The command with its domains expanded. -/
def expandCommand (sig : SignalDict) : Command → Command
  | .X k e => .X k (expandDomain sig e)
  | .Z k e => .Z k (expandDomain sig e)
  | .M k m s t => .M k m (expandDomain sig s) (expandDomain sig t)
  | c => c

theorem expandCommand_shift {sig sig' : SignalDict} {n : ℕ} {d : Finset ℕ} (hn : SignalDict.at sig n = ∅)
    (h : ∀ k, SignalDict.at sig' k = if n = k then expandDomain sig d else SignalDict.at sig k) (c : Command) (hc : ∀ k e, c ≠ .S k e) :
    expandCommand sig' c = expandCommand sig (shiftCommand n d c) := by
  cases c <;> simp_all [expandCommand, shiftCommand, expandDomain_shift hn h]

theorem expandCommand_congr {sig sig' : SignalDict} (h : ∀ n, SignalDict.at sig n = SignalDict.at sig' n) (c : Command) :
    expandCommand sig c = expandCommand sig' c := by
  cases c <;> simp [expandCommand, expandDomain_congr h]

theorem empty_symmDiff' (A : Finset ℕ) : (∅ : Finset ℕ) ∆ A = A := bot_symmDiff A

theorem shiftStep_M_snd (sig : SignalDict) (n : ℕ) (m : Measurement) (s t : Finset ℕ) : (shiftStep sig (.M n m s t)).2 =
    expandCommand sig (.M n m (extractSignal m.toBloch.plane s t).1 (extractSignal m.toBloch.plane s t).2.1) := by
  cases hp : m.toBloch.plane <;> simp only [shiftStep, extractSignal, expandCommand, hp] <;> split <;> rename_i h
  · simp [expandDomain_empty]
  · simp only [not_not] at h; simp [h, expandDomain_empty]
  · simp [expandDomain_empty]
  · simp only [not_not] at h; simp [h, expandDomain_empty]
  · simp [expandDomain_empty, expandDomain_symmDiff, symmDiff_comm]
  · simp only [ne_eq, not_not] at h; simp [h, expandDomain_empty, expandDomain_symmDiff, empty_symmDiff']

theorem pushAll_signals : ∀ (l : List Command), NoSignal l → (measuredIn l).Nodup → ∀ (sig sig0 : SignalDict), (∀ n ∈ measuredIn l, SignalDict.at sig n = ∅) →
    (shiftLoop sig l).2 = (pushAll (signalsLoop sig0 l).2).map (expandCommand sig) := by
  intro l
  induction l with
  | nil => intros; rfl
  | cons c l ih =>
    intro hns hnd sig sig0 hsig
    have hns' : NoSignal l := fun c hc => hns c (by simp [hc])
    by_cases hM : ∃ n m s t, c = .M n m s t
    · obtain ⟨n, m, s, t, rfl⟩ := hM
      have hml : measuredIn (.M n m s t :: l) = n :: measuredIn l := rfl
      rw [hml, List.nodup_cons] at hnd
      rw [hml] at hsig
      have hn := hsig n (by simp)
      set sg := (extractSignal m.toBloch.plane s t).2.2 with hsg
      set sig' := (shiftStep sig (.M n m s t)).1 with hsig'
      have hat : ∀ k, SignalDict.at sig' k = if n = k then expandDomain sig sg else SignalDict.at sig k := by
        intro k
        obtain ⟨D, h1, h2⟩ := shiftStep_fst_M sig n m s t
        have hD : D = expandDomain sig sg := by
          rw [h2, hsg]
          cases m.toBloch.plane <;> rfl
        rw [h1, ← hD]
        by_cases hk : n = k
        · subst hk
          by_cases hD0 : D = ∅
          · simp [hD0, hn]
          · simp [hD0]
        · simp [hk]
      have hl : (shiftLoop sig' l).2 = (pushAll (signalsLoop (sig0.set n sg) l).2).map (expandCommand sig') := by
        refine ih hns' hnd.2 _ _ fun k hk => ?_
        rw [hat, if_neg (by rintro rfl; exact hnd.1 hk)]
        exact hsig k (by simp [hk])
      have hmap : (shiftLoop sig' l).2 = ((pushAll (signalsLoop (sig0.set n sg) l).2).map (shiftCommand n sg)).map (expandCommand sig) := by
        rw [hl, List.map_map]
        refine List.map_congr_left fun c hc => ?_
        exact expandCommand_shift hn hat c fun k e => pushAll_noSignal _ c hc k e
      have hhead := shiftStep_M_snd sig n m s t
      show (shiftStep sig (.M n m s t)).2 :: (shiftLoop sig' l).2 = _
      unfold signalsLoop
      simp only []
      rw [← hsg]
      by_cases h0 : sg = ∅
      · rw [if_neg (by simp [h0]), pushAll, List.map_cons, hl]
        · congr 1
          · rw [hhead]
            congr 1
            rw [hsg] at h0
            revert h0
            unfold extractSignal
            cases m.toBloch.plane <;> simp +contextual [empty_symmDiff']
          · refine List.map_congr_left fun c _ => expandCommand_congr (fun k => ?_) c
            rw [hat, h0, expandDomain_empty]
            split
            · rename_i hk; subst hk; exact hn.symm
            · rfl
        · intro k e; simp
      · rw [if_pos h0]
        simp only [pushAll, List.map_cons]
        rw [hmap, hhead]
    · have hc : ∀ k e, c ≠ .S k e := hns c (by simp)
      have hml : measuredIn (c :: l) = measuredIn l := by
        unfold measuredIn
        rw [List.filterMap_cons_none]
        cases c <;> simp_all [Command.measured?]
      rw [hml] at hnd hsig
      have h1 := ih hns' hnd sig sig0 hsig
      have h2 : shiftStep sig c = (sig, expandCommand sig c) := by
        cases c <;> simp_all [shiftStep, expandCommand]
      have h3 : (signalsLoop sig0 (c :: l)).2 = c :: (signalsLoop sig0 l).2 := by
        cases c <;> simp_all [signalsLoop]
      have h4 : pushAll (c :: (signalsLoop sig0 l).2) = c :: pushAll (signalsLoop sig0 l).2 := by
        cases c <;> simp_all [pushAll]
      rw [h3, h4, List.map_cons, ← h1]
      show (shiftStep sig c).2 :: (shiftLoop (shiftStep sig c).1 l).2 = _
      rw [h2]

theorem expandCommand_nil (c : Command) : expandCommand [] c = c := by
  cases c <;> simp [expandCommand, expandDomain_nil]

/-- **C54.** On a runnable pattern (without `S` commands), the loop of the method `mc` terminates, and the pattern that it gives is
the pattern of the method `direct`. -/
theorem C54_same_pattern (p : Pattern) (h : p.checkRunnability = .ok ()) (hS : NoSignal p.seq) :
    ∃ k, ∀ fuel ≥ k, ∃ sig, p.shiftSignalsMc fuel = some (p.shiftSignalsDirect.1, sig) := by
  have hnd := ((checkRunnability_iff p).1 h).measured_nodup
  obtain ⟨k, hk⟩ := mcLoop_spec (signalsLoop [] p.seq).2 [] (by simp [NoSignal]) rfl
  refine ⟨k, fun fuel hf => ⟨(signalsLoop [] p.seq).1, ?_⟩⟩
  have h1 := hk fuel hf
  rw [List.append_nil] at h1
  unfold shiftSignalsMc
  simp only [h1, bind, Option.bind, pure]
  have h2 := pushAll_signals p.seq hS hnd [] [] (by simp [SignalDict.at, PyDict.get?])
  rw [List.map_congr_left (g := id) fun c _ => expandCommand_nil c, List.map_id] at h2
  rw [← h2]
  rfl

/-! ### The dictionaries -/

/-- What is taken out of a measurement. -/
noncomputable def signalOf (m : Measurement) (s t : Finset ℕ) : Finset ℕ := if m.toBloch.plane = .XY then t else s

theorem extractSignal_signal (m : Measurement) (s t : Finset ℕ) : (extractSignal m.toBloch.plane s t).2.2 = signalOf m s t := by
  unfold extractSignal signalOf
  cases m.toBloch.plane <;> simp

theorem signalsLoop_keep (l : List Command) : ∀ (sig : SignalDict) (k : ℕ), k ∉ measuredIn l → SignalDict.at (signalsLoop sig l).1 k = SignalDict.at sig k := by
  induction l with
  | nil => intros; rfl
  | cons c l ih =>
    intro sig k hk
    cases c with
    | M n m s t =>
      have hml : measuredIn (.M n m s t :: l) = n :: measuredIn l := rfl
      rw [hml, List.mem_cons, not_or] at hk
      have : SignalDict.at (signalsLoop (sig.set n (extractSignal m.toBloch.plane s t).2.2) l).1 k = SignalDict.at sig k := by
        rw [ih _ k hk.2, SignalDict.at_set, if_neg (Ne.symm hk.1)]
      unfold signalsLoop
      simp only []
      split <;> exact this
    | _ => exact ih sig k hk

theorem signalsLoop_at (l : List Command) : ∀ (sig : SignalDict), (measuredIn l).Nodup → ∀ n m s t, .M n m s t ∈ l →
    SignalDict.at (signalsLoop sig l).1 n = signalOf m s t := by
  induction l with
  | nil => intro sig _ n m s t h; cases h
  | cons c l ih =>
    intro sig hnd n m s t h
    cases c with
    | M n' m' s' t' =>
      have hml : measuredIn (.M n' m' s' t' :: l) = n' :: measuredIn l := rfl
      rw [hml, List.nodup_cons] at hnd
      have : SignalDict.at (signalsLoop (sig.set n' (extractSignal m'.toBloch.plane s' t').2.2) l).1 n = signalOf m s t := by
        rcases List.mem_cons.1 h with h | h
        · cases h
          rw [signalsLoop_keep _ _ _ hnd.1, SignalDict.at_set, if_pos rfl, extractSignal_signal]
        · exact ih _ hnd.2 n m s t h
      unfold signalsLoop
      simp only []
      split <;> exact this
    | _ =>
      rcases List.mem_cons.1 h with h | h
      · cases h
      · exact ih sig hnd n m s t h

theorem shiftLoop_at (l : List Command) : ∀ (sig : SignalDict) (A : Finset ℕ), SigInv A sig → DomainsOk A l → ∀ n m s t, .M n m s t ∈ l →
    SignalDict.at (shiftLoop sig l).1 n = expandDomain (shiftLoop sig l).1 (signalOf m s t) := by
  induction l with
  | nil => intro sig A _ _ n m s t h; cases h
  | cons c l ih =>
    intro sig A hinv hok n m s t h
    have hinv' := shiftStep_inv sig A hinv c (fun n m s t hc => by subst hc; exact hok.head)
    rcases List.mem_cons.1 h with h | h
    · subst h
      obtain ⟨hs, ht, hn⟩ := hok.head
      have hkeep := shiftLoop_keep' hinv'.1 hok.tail
      have hkeepA := shiftLoop_keep' hinv hok
      show SignalDict.at (shiftLoop (shiftStep sig (.M n m s t)).1 l).1 n = _
      rw [hkeep n (by simp [Command.measured?])]
      obtain ⟨D, h1, h2⟩ := shiftStep_fst_M sig n m s t
      have hD : D = expandDomain sig (signalOf m s t) := by
        rw [h2]; unfold signalOf
        cases m.toBloch.plane <;> simp
      have hat : SignalDict.at (shiftStep sig (.M n m s t)).1 n = D := by
        rw [h1]
        by_cases h0 : D = ∅
        · simp [h0, hinv.out n hn]
        · simp [h0]
      rw [hat, hD]
      refine parity_ext fun r => ?_
      rw [parity_expandDomain, parity_expandDomain]
      apply parity_congr
      intro k hk
      have hkA : k ∈ A := by
        unfold signalOf at hk
        split at hk
        · exact ht hk
        · exact hs hk
      simp only [shiftBranch, hkeepA k hkA]
    · exact ih _ _ hinv'.1 hok.tail n m s t h

/-- **C54.** The dictionaries: that of the method `mc` has the signals as they are in the pattern, that of the method `direct` has the
same signals where the previous ones are substituted. They are the same when no signal depends on a node that has a signal. -/
theorem C54_signals (p : Pattern) (h : p.checkRunnability = .ok ()) (fuel : ℕ) (q : Pattern) (sig : SignalDict)
    (hq : p.shiftSignalsMc fuel = some (q, sig)) :
    (∀ n m s t, .M n m s t ∈ p.seq → SignalDict.at sig n = signalOf m s t ∧
      SignalDict.at p.shiftSignalsDirect.2 n = expandDomain p.shiftSignalsDirect.2 (SignalDict.at sig n)) ∧
    ((∀ n, ∀ k ∈ SignalDict.at sig n, SignalDict.at sig k = ∅) → ∀ n ∈ measuredIn p.seq, SignalDict.at p.shiftSignalsDirect.2 n = SignalDict.at sig n) := by
  have hr := (checkRunnability_iff p).1 h
  have hnd := hr.measured_nodup
  have hsig : sig = (signalsLoop [] p.seq).1 := by
    unfold shiftSignalsMc at hq
    simp only [bind, Option.bind, pure] at hq
    split at hq
    · cases hq
    · cases hq; rfl
  subst hsig
  have h1 : ∀ n m s t, .M n m s t ∈ p.seq → SignalDict.at (signalsLoop [] p.seq).1 n = signalOf m s t ∧
      SignalDict.at p.shiftSignalsDirect.2 n = expandDomain p.shiftSignalsDirect.2 (SignalDict.at (signalsLoop [] p.seq).1 n) := by
    intro n m s t hm
    have e := signalsLoop_at p.seq [] hnd n m s t hm
    refine ⟨e, ?_⟩
    rw [e]
    exact shiftLoop_at p.seq [] ∅ SigInv.empty (.of_runnable hr) n m s t hm
  refine ⟨h1, fun hun n hn => ?_⟩
  have hmem : ∀ n ∈ measuredIn p.seq, ∃ m s t, Command.M n m s t ∈ p.seq := by
    intro n hn
    obtain ⟨c, hc, he⟩ := List.mem_filterMap.1 hn
    cases c <;> simp [Command.measured?] at he
    subst he
    exact ⟨_, _, _, hc⟩
  have hinv := shiftLoop_inv p.seq [] ∅ SigInv.empty (.of_runnable hr)
  have hzero : ∀ k, SignalDict.at (signalsLoop [] p.seq).1 k = ∅ → SignalDict.at p.shiftSignalsDirect.2 k = ∅ := by
    intro k hk
    by_cases hkm : k ∈ measuredIn p.seq
    · obtain ⟨m, s, t, hm⟩ := hmem k hkm
      rw [(h1 k m s t hm).2, hk, expandDomain_empty]
    · exact hinv.out k (by simpa using hkm)
  obtain ⟨m, s, t, hm⟩ := hmem n hn
  rw [(h1 n m s t hm).2]
  refine parity_ext fun r => ?_
  rw [parity_expandDomain]
  apply parity_congr
  intro k hk
  simp [shiftBranch, hzero k (hun n k hk), parity_empty]

theorem mcLoop_mono : ∀ (fuel fuel' : ℕ) (l : List Command) (t : Option ℕ) (l' : List Command), fuel ≤ fuel' → mcLoop fuel l t = some l' → mcLoop fuel' l t = some l' := by
  intro fuel
  induction fuel with
  | zero =>
    intro fuel' l t l' _ h
    cases t with
    | none => cases fuel' <;> exact h
    | some t => cases h
  | succ fuel ih =>
    intro fuel' l t l' hf h
    cases t with
    | none => cases fuel' <;> exact h
    | some t =>
      obtain ⟨f, rfl⟩ : ∃ f, fuel' = f + 1 := ⟨fuel' - 1, by omega⟩
      unfold mcLoop at h ⊢
      split at h
      · rw [if_pos ‹_›]; exact ih _ _ _ _ (by omega) h
      · rw [if_neg ‹_›]; exact ih _ _ _ _ (by omega) h

/-- **C54.** The dictionary of the method `mc` serves in the other direction: from the outcomes `o` of the pattern, `shift_outcomes`
succeeds and gives outcomes for which the shifted pattern does the same as the pattern for `o`. -/
theorem C54_unshifted_to_shifted (p : Pattern) (h : p.checkRunnability = .ok ()) (hS : NoSignal p.seq) (fuel : ℕ) (q : Pattern) (sig : SignalDict)
    (hq : p.shiftSignalsMc fuel = some (q, sig)) (o : PyDict ℕ Bool) (ho : ∀ n ∈ measuredIn p.seq, n ∈ PyDict.keys o) :
    ∃ o', shiftOutcomes? o sig = some o' ∧ PyDict.keys o' = PyDict.keys o ∧ OpPhaseEq (semCmds (branchOf o') q.seq) (semCmds (branchOf o) p.seq) := by
  have hr := (checkRunnability_iff p).1 h
  have hok := DomainsOk.of_runnable hr
  have hq' : q = p.shiftSignalsDirect.1 ∧ sig = (signalsLoop [] p.seq).1 := by
    obtain ⟨k, hk⟩ := C54_same_pattern p h hS
    obtain ⟨sig', h1⟩ := hk (max k fuel) (le_max_left _ _)
    unfold shiftSignalsMc at hq h1
    simp only [bind, Option.bind, pure] at hq h1
    split at hq
    · cases hq
    · rename_i l hl
      cases hq
      refine ⟨?_, rfl⟩
      rw [mcLoop_mono _ _ _ _ _ (le_max_right k fuel) hl] at h1
      simp only [Option.some.injEq, Prod.mk.injEq] at h1
      exact h1.1
  obtain ⟨rfl, rfl⟩ := hq'
  have hC := (C54_signals p h fuel _ _ hq).1
  have hmem : ∀ n ∈ measuredIn p.seq, ∃ m s t, Command.M n m s t ∈ p.seq := by
    intro n hn
    obtain ⟨c, hc, he⟩ := List.mem_filterMap.1 hn
    cases c <;> simp [Command.measured?] at he
    subst he
    exact ⟨_, _, _, hc⟩
  have hsub : ∀ n, SignalDict.at (signalsLoop [] p.seq).1 n ⊆ (PyDict.keys o).toFinset := by
    intro n
    by_cases hn : n ∈ measuredIn p.seq
    · obtain ⟨m, s, t, hm⟩ := hmem n hn
      rw [(hC n m s t hm).1]
      obtain ⟨pre, post, hpp⟩ := List.append_of_mem hm
      obtain ⟨hs, ht, -⟩ := hok pre (.M n m s t) post hpp
      have hpm : ∀ k ∈ measuredIn pre, k ∈ measuredIn p.seq := by
        intro k hk
        rw [hpp]
        unfold measuredIn at hk ⊢
        rw [List.filterMap_append, List.mem_append]
        exact .inl hk
      intro k hk
      have : k ∈ measuredIn p.seq := by
        unfold signalOf at hk
        split at hk
        · exact hpm k (by simpa using ht hk)
        · exact hpm k (by simpa using hs hk)
      simpa using ho k this
    · rw [signalsLoop_keep _ _ _ hn]
      simp [SignalDict.at, PyDict.get?]
  obtain ⟨o', h1, h2, h3⟩ := shiftOutcomes?_spec (signalsLoop [] p.seq).1 o hsub
  refine ⟨o', h1, h2, (C13_shift_signals p h (branchOf o')).trans (OpPhaseEq.of_eq ?_)⟩
  apply semCmds_congr p.seq ∅ _ _ hok
  intro n hn
  rw [Finset.empty_union, List.mem_toFinset] at hn
  have hinv := shiftLoop_inv p.seq [] ∅ SigInv.empty hok
  rw [Finset.empty_union] at hinv
  obtain ⟨r', hr'⟩ := (C14_bijective p h).2 (branchOf o)
  have hr'n : ∀ n ∈ measuredIn p.seq, branchOf o' n = r' n := by
    intro n hn
    obtain ⟨m, s, t, hm⟩ := hmem n hn
    rw [h3 n (ho n hn), shiftBranch, ← hr', ← parity_expandDomain, ← (hC n m s t hm).2]
    simp [shiftBranch]
  rw [← hr', shiftBranch, shiftBranch, hr'n n hn]
  congr 1
  refine parity_congr fun k hk => hr'n k ?_
  simpa using hinv.sub n hk

/-! ### Examples -/

/-- Three qubits in `|+⟩`; the first one is measured along -X (outcome 1), the two others along X, with the outcome toggled by the previous one. -/
noncomputable def mcExample : Pattern := (Pattern.empty []).extend
  [.N 0 .plus, .N 1 .plus, .N 2 .plus, .M 0 (.pauli ⟨.X, .minus⟩) ∅ ∅, .M 1 (.pauli ⟨.X, .plus⟩) ∅ {0}, .M 2 (.pauli ⟨.X, .plus⟩) ∅ {1}]

theorem mcExample_runnable : mcExample.checkRunnability = .ok () := rfl

theorem mcExample_mc : mcExample.shiftSignalsMc 10 = some (⟨[], 3, [.N 0 .plus, .N 1 .plus, .N 2 .plus, .M 0 (.pauli ⟨.X, .minus⟩) ∅ ∅,
    .M 1 (.pauli ⟨.X, .plus⟩) ∅ ∅, .M 2 (.pauli ⟨.X, .plus⟩) ∅ ∅], []⟩, [(0, ∅), (1, {0}), (2, {1})]) := rfl

/-- **C54.** With the dictionary of the method `mc`, `shift_outcomes` does not give the outcomes of the unshifted pattern: in a branch
that is possible for the shifted pattern, the outcomes that it gives are impossible for the unshifted pattern. -/
theorem C54_mc_signals_wrong : ∃ (p q : Pattern) (sig : SignalDict) (fuel : ℕ), p.checkRunnability = .ok () ∧ NoSignal p.seq ∧ p.shiftSignalsMc fuel = some (q, sig) ∧
    ∃ o' o : PyDict ℕ Bool, shiftOutcomes? o' sig = some o ∧ semCmds (branchOf o') q.seq (fun _ => 1) ≠ 0 ∧ semCmds (branchOf o) p.seq (fun _ => 1) = 0 := by
  refine ⟨mcExample, _, _, 10, mcExample_runnable, ?_, mcExample_mc, [(0, true), (1, false), (2, false)], [(0, true), (1, true), (2, false)], rfl, ?_, ?_⟩
  · simp [NoSignal, mcExample, Pattern.empty, Pattern.extend, Pattern.add]
  · intro h
    have h := congrFun h fun _ => false
    simp only [semCmds_cons, semCmds_nil, Command.sem, prep_plus, parity_empty, powB, Bool.false_eq_true, if_false, op1_one, projOut, measVec_X, Pi.smul_apply, smul_eq_mul, Pi.zero_apply] at h
    simp [branchOf, PyDict.get?] at h
  · funext b
    have hs : mcExample.seq = [.N 0 .plus, .N 1 .plus, .N 2 .plus, .M 0 (.pauli ⟨.X, .minus⟩) ∅ ∅, .M 1 (.pauli ⟨.X, .plus⟩) ∅ {0}, .M 2 (.pauli ⟨.X, .plus⟩) ∅ {1}] := rfl
    rw [hs]
    have h0 : branchOf [(0, true), (1, true), (2, false)] 0 = true := rfl
    have h1 : branchOf [(0, true), (1, true), (2, false)] 1 = true := rfl
    have h2 : branchOf [(0, true), (1, true), (2, false)] 2 = false := rfl
    have hX : ∀ n φ, op1 (powB Ops.X false) n φ = φ := fun n φ => by simp [powB, op1_one]
    simp only [semCmds_cons, semCmds_nil, Command.sem, prep_plus, parity_empty, parity_singleton, h0, h1, h2, hX, projOut, measVec_X, op1_powB_Z, Pi.zero_apply]
    simp; ring

example : ∃ fuel q sig, mcExample.shiftSignalsMc fuel = some (q, sig) ∧ SignalDict.at mcExample.shiftSignalsDirect.2 2 ≠ SignalDict.at sig 2 := by
  refine ⟨10, _, _, mcExample_mc, ?_⟩
  show SignalDict.at [(1, {0}), (2, {0, 1})] 2 ≠ _
  decide

end Pattern
end Graphix
