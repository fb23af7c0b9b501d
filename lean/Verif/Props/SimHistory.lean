import Verif.Props.Simulator
import Verif.Proofs.FlowCheck2

/-!
# Property C10: the outcomes of a run are the answers of the branch selector
-/

namespace Graphix

/-- The outcomes `out` of the nodes `ns`, in this order. -/
def recordList (out : ℕ → Bool) (ns : List ℕ) : PyDict ℕ Bool := ns.foldl (fun d n => d.set n (out n)) []

theorem recordList_append (out : ℕ → Bool) (ns : List ℕ) (n : ℕ) : recordList out (ns ++ [n]) = (recordList out ns).set n (out n) := by
  simp [recordList, List.foldl_append]

theorem recordList_congr {out out' : ℕ → Bool} {ns : List ℕ} (h : ∀ n ∈ ns, out n = out' n) : recordList out ns = recordList out' ns := by
  induction ns using List.reverseRecOn with
  | nil => rfl
  | append_singleton ns n ih =>
    rw [recordList_append, recordList_append, ih (fun k hk => h k (by simp [hk])), h n (by simp)]

theorem recordList_get (out : ℕ → Bool) (ns : List ℕ) (k : ℕ) :
    (recordList out ns).get? k = if k ∈ ns then some (out k) else none := by
  induction ns using List.reverseRecOn with
  | nil => rfl
  | append_singleton ns n ih =>
    rw [recordList_append, PyDict.get?_set]
    by_cases hk : n = k
    · subst hk; simp
    · rw [if_neg hk, ih]; simp [Ne.symm hk]

theorem agrees_recordList {out r : ℕ → Bool} {ns : List ℕ} : Agrees (recordList out ns) r ↔ ∀ n ∈ ns, r n = out n := by
  constructor
  · intro h n hn
    exact h n (out n) (by rw [recordList_get, if_pos hn])
  · intro h n o ho
    rw [recordList_get] at ho
    split at ho
    · rename_i hn
      rw [← Option.some.inj ho]; exact h n hn
    · cases ho

/-- Node `n` is measured after `pre`, where the outcomes were `out`: the branch selector is asked with these outcomes and with the
probability of outcome 0 given these outcomes, and answers `x`. -/
def SelAnswersSV (env : SimEnv) (inputs : List ℕ) (ψ₀ : QState) (pre : List Command) (n : ℕ) (m : Measurement) (s t : Finset ℕ)
    (out : ℕ → Bool) (x : Except PyErr Bool) : Prop :=
  ∃ p0 : ℝ, 0 ≤ p0 ∧ p0 ≤ 1 ∧
    (∀ r, (∀ k ∈ measuredIn pre, r k = out k) → 0 < branchProb inputs ψ₀ pre r ∧
      branchProb inputs ψ₀ (pre ++ [.M n m s t]) r = (if r n then 1 - p0 else p0) * branchProb inputs ψ₀ pre r) ∧
    env.sel (recordList out (measuredIn pre)) n p0 = x

/-- All the outcomes of the measurements in `l` are answers of the branch selector. -/
def ChosenSV (env : SimEnv) (inputs : List ℕ) (ψ₀ : QState) (l : List Command) (out : ℕ → Bool) : Prop :=
  ∀ pre n m s t post, l = pre ++ .M n m s t :: post → SelAnswersSV env inputs ψ₀ pre n m s t out (.ok (out n))

theorem SelAnswersSV.congr {env : SimEnv} {inputs : List ℕ} {ψ₀ : QState} {pre : List Command} {n : ℕ} {m : Measurement}
    {s t : Finset ℕ} {out out' : ℕ → Bool} {x : Except PyErr Bool} (h : ∀ k ∈ measuredIn pre, out k = out' k)
    (hs : SelAnswersSV env inputs ψ₀ pre n m s t out x) : SelAnswersSV env inputs ψ₀ pre n m s t out' x := by
  obtain ⟨p0, h0, h1, h2, h3⟩ := hs
  rw [recordList_congr h] at h3
  exact ⟨p0, h0, h1, fun r hr => h2 r (fun k hk => by rw [hr k hk, h k hk]), h3⟩

theorem SimInv.branch_pos {inputs : List ℕ} {ψ₀ : QState} {pre : List Command} {st : SimState} (inv : SimInv inputs ψ₀ pre st)
    {r : ℕ → Bool} (hr : Agrees st.results r) : 0 < branchProb inputs ψ₀ pre r := by
  obtain ⟨c, hc, hsem⟩ := inv.sem r hr
  have h1 : stateNormSq st.idx.list (absState st.idx.list st.sv.psi) = 1 := by
    rw [stateNormSq_abs _ inv.idx.nodup, inv.nqubit, inv.norm]
  rw [hsem, stateNormSq_smul] at h1
  have hb : branchProb inputs ψ₀ pre r = stateNormSq st.idx.list (semCmds r pre ψ₀) := by
    unfold branchProb
    apply stateNormSq_mem (nodup_liveList _ _) inv.idx.nodup
    intro n; rw [mem_liveList, inv.live]
  rw [hb]
  have h0 : 0 ≤ stateNormSq st.idx.list (semCmds r pre ψ₀) := Finset.sum_nonneg (fun _ _ => Complex.normSq_nonneg _)
  rcases h0.lt_or_eq with h | h
  · exact h
  · rw [← h] at h1; simp at h1

theorem ChosenSV.snoc_other {env : SimEnv} {inputs : List ℕ} {ψ₀ : QState} {l : List Command} {out : ℕ → Bool}
    (h : ChosenSV env inputs ψ₀ l out) {c : Command} (hm : ∀ n m s t, c ≠ .M n m s t) : ChosenSV env inputs ψ₀ (l ++ [c]) out := by
  intro pre n m s t post he
  rcases List.eq_nil_or_concat post with rfl | ⟨post, y, rfl⟩
  · have := (List.append_inj' he rfl).2
    exact absurd (List.cons.inj this).1 (hm n m s t)
  · rw [List.concat_eq_append, ← List.cons_append, ← List.append_assoc] at he
    exact h pre n m s t post (List.append_inj' he rfl).1

theorem ChosenSV.snoc_M {env : SimEnv} {inputs : List ℕ} {ψ₀ : QState} {l : List Command} {out : ℕ → Bool}
    (h : ChosenSV env inputs ψ₀ l out) {n : ℕ} {m : Measurement} {s t : Finset ℕ} {o : Bool} (hn : n ∉ measuredIn l)
    (hs : SelAnswersSV env inputs ψ₀ l n m s t out (.ok o)) :
    ChosenSV env inputs ψ₀ (l ++ [.M n m s t]) (Function.update out n o) := by
  have hup : ∀ k ∈ measuredIn l, out k = Function.update out n o k := by
    intro k hk
    rw [Function.update_of_ne]
    rintro rfl; exact hn hk
  intro pre n' m' s' t' post he
  rcases List.eq_nil_or_concat post with rfl | ⟨post, y, rfl⟩
  · obtain ⟨rfl, h2⟩ := List.append_inj' he rfl
    have h3 := (List.cons.inj h2).1
    injection h3 with e1 e2 e3 e4
    subst e1 e2 e3 e4
    rw [Function.update_self]
    exact hs.congr hup
  · rw [List.concat_eq_append, ← List.cons_append, ← List.append_assoc] at he
    have hl := (List.append_inj' he rfl).1
    have h1 := h pre n' m' s' t' post hl
    have hn' : n' ∈ measuredIn l := by
      rw [hl]; simp [measuredIn, Command.measured?]
    rw [← hup n' hn']
    refine h1.congr (fun k hk => hup k ?_)
    rw [hl, measuredIn_append]
    exact List.mem_append_left _ hk

theorem loop_history {env : SimEnv} {inputs : List ℕ} {ψ₀ : QState} {seq : List Command} (henv : env.Ok seq)
    (hrun : Runnable inputs seq) (hS : ∀ n d, Command.S n d ∉ seq) :
    ∀ (post pre : List Command) (st : SimState) (out : ℕ → Bool), seq = pre ++ post → SimInv inputs ψ₀ pre st →
      st.results = recordList out (measuredIn pre) → ChosenSV env inputs ψ₀ pre out →
      ∀ st', SimState.loop env pre.length post st = .ok st' →
        ∃ out', st'.results = recordList out' (measuredIn seq) ∧ ChosenSV env inputs ψ₀ seq out' := by
  intro post
  induction post with
  | nil =>
    intro pre st out hseq inv hres hch st' h
    rw [List.append_nil] at hseq
    subst hseq
    obtain rfl := Except.ok.inj h
    exact ⟨out, hres, hch⟩
  | cons c post ih =>
    intro pre st out hseq inv hres hch st' h
    have hal := hrun pre c post hseq
    have hsub := (hseq ▸ hrun : Runnable inputs (pre ++ c :: post)).prefix.measured_sub
    have hseq' : seq = (pre ++ [c]) ++ post := by rw [hseq]; simp
    by_cases hm : ∃ n m s t, c = .M n m s t
    · obtain ⟨n, m, s, t, rfl⟩ := hm
      have hnm : n ∉ measuredIn pre := hal.1.2
      obtain ⟨p0, hp0, hp1, hprob, h'⟩ := step_measure henv inv pre.length n m s t hal
      have hans : ∀ x, env.sel st.results n p0 = x → SelAnswersSV env inputs ψ₀ pre n m s t out x := by
        intro x hx
        refine ⟨p0, hp0, hp1, fun r hr => ?_, by rw [← hres]; exact hx⟩
        have ha : Agrees st.results r := by rw [hres, agrees_recordList]; exact hr
        exact ⟨inv.branch_pos ha, hprob r ha⟩
      rcases h' with ⟨e, h1, h2⟩ | ⟨o, h1, ⟨h2, -⟩ | ⟨st1, h2, h3, h4, -⟩⟩
      · simp only [SimState.loop, h2, bind, Except.bind] at h; cases h
      · simp only [SimState.loop, h2, bind, Except.bind] at h; cases h
      · simp only [SimState.loop, h2, bind, Except.bind] at h
        refine ih (pre ++ [.M n m s t]) st1 (Function.update out n o) hseq' h3 ?_ (hch.snoc_M hnm (hans _ h1)) st' (by simpa using h)
        have e1 : measuredIn (pre ++ [Command.M n m s t]) = measuredIn pre ++ [n] := by
          simp [measuredIn_append, Command.measured?]
        rw [h4, e1, recordList_append, Function.update_self, hres]
        congr 1
        exact recordList_congr (fun k hk => (Function.update_of_ne (by rintro rfl; exact hnm hk) _ _).symm)
    · have hm' : ∀ n m s t, c ≠ .M n m s t := fun n m s t h => hm ⟨n, m, s, t, h⟩
      have hmn : c.measured? = none := by
        cases c with
        | M n m s t => exact absurd rfl (hm' n m s t)
        | _ => rfl
      obtain ⟨st1, h2, h3, h4⟩ := step_other (hseq ▸ henv) inv hsub hal hmn (fun n d h => hS n d (by
        rw [hseq, ← h]; simp))
      simp only [SimState.loop, h2, bind, Except.bind] at h
      refine ih (pre ++ [c]) st1 out hseq' h3 ?_ (hch.snoc_other hm') st' (by simpa using h)
      rw [h4, hres]
      congr 1
      simp [measuredIn_append, hmn]

/-- **C10** The recorded outcomes of a run are, in the order of the measurements, the answers of the branch selector, which is asked
for each measured node with the outcomes recorded so far and the probability (given these outcomes) of outcome 0. -/
theorem C10_history (env : SimEnv) (p : Pattern) (henv : env.Ok p.seq) (hp : p.OutputsOk)
    (hrun : p.checkRunnability = .ok ()) (hS : ∀ n d, Command.S n d ∉ p.seq) (data : InputData) (plusObj : Bool)
    (hd : data.Ok p.inputs.length) (hplus : plusObj = true → data = .state PlanarState.plus) (junk : ℕ → Buf) (st : SimState)
    (h : simulate env p data plusObj junk = .ok st) :
    ∃ out, st.results = recordList out (measuredIn p.seq) ∧ ChosenSV env p.inputs (data.toState p.inputs) p.seq out := by
  have hR := (checkRunnability_iff p).1 hrun
  obtain ⟨sv, hsv, hinv⟩ := start_ok junk p hp.inputs_nodup data plusObj hd hplus
  have hsim : simulate env p data plusObj junk = (do
      let st ← SimState.loop env 0 p.seq ⟨sv, NodeIndex.clear.extend p.inputs, []⟩
      st.finalize p.outputs) := by
    unfold simulate
    simp only []
    rw [hsv, hrun]
    rfl
  rw [hsim] at h
  obtain ⟨st1, h1, h2⟩ := (bind_ok_iff _ _ _).1 h
  have hres : st.results = st1.results := by
    unfold SimState.finalize at h2
    obtain ⟨a, -, h2⟩ := (bind_ok_iff _ _ _).1 h2
    obtain ⟨b, -, h2⟩ := (bind_ok_iff _ _ _).1 h2
    obtain rfl := Except.ok.inj h2
    rfl
  rw [hres]
  exact loop_history henv hR hS p.seq [] _ (fun _ => false) rfl hinv rfl (by intro pre n m s t post h; simp at h) st1 h1

end Graphix
