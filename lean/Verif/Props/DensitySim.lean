import Verif.Props.DensityMeasure
import Verif.Spec.NoisySem
import Verif.Props.Noise

/-!
# Property C57: runs of patterns on the density-matrix backend, with or without noise
-/

namespace Graphix

open NdArray

/-- The Kraus operators of the noises in an environment. -/
noncomputable def DMEnv.chan (env : DMEnv) (noise : Noise) : List (ℂ × (List Bool → List Bool → ℂ)) :=
  match noise.toKrausChannel env.user with
  | .ok ch => NpChannel.kraus ch
  | .error _ => []

/-- The command or noise may be executed after `pre`. -/
def AllowedN (env : DMEnv) (inputs : List ℕ) (pre : List CmdOrNoise) : CmdOrNoise → Prop
  | .cmd c => Allowed inputs (eraseNoise pre) c ∧ (∀ n d, c ≠ .S n d) ∧ ∀ u, c ≠ .E u u
  | .noise a => a.nodes.Nodup ∧ (∀ n ∈ a.nodes, Live inputs (eraseNoise pre) n) ∧
      (∀ d, a.domain = some d → ∀ k ∈ d, k ∈ measuredIn (eraseNoise pre)) ∧
      ∃ ch, a.noise.toKrausChannel env.user = .ok ch ∧ GoodChannel a.nodes.length ch

/-- Every command and every noise of the sequence is allowed where it stands. -/
def RunnableN (env : DMEnv) (inputs : List ℕ) (seq : List CmdOrNoise) : Prop :=
  ∀ pre c post, seq = pre ++ c :: post → AllowedN env inputs pre c

theorem eraseNoise_append (l l' : List CmdOrNoise) : eraseNoise (l ++ l') = eraseNoise l ++ eraseNoise l' := List.filterMap_append
theorem eraseNoise_cmd (c : Command) : eraseNoise [.cmd c] = [c] := rfl
theorem eraseNoise_noise (a : ApplyNoise) : eraseNoise [.noise a] = [] := rfl

theorem recordAll_append (confuse : Option ((ℕ → ℝ) → ℕ → Bool → Bool × ℕ)) (draw : ℕ → ℝ) (out : ℕ → Bool) (ns : List ℕ) (n : ℕ) :
    recordAll confuse draw out (ns ++ [n]) =
      ((recordAll confuse draw out ns).1.set n (confuseOf confuse draw (recordAll confuse draw out ns).2 (out n)).1,
        (confuseOf confuse draw (recordAll confuse draw out ns).2 (out n)).2) := by
  simp [recordAll, List.foldl_append]

theorem recordAll_congr (confuse : Option ((ℕ → ℝ) → ℕ → Bool → Bool × ℕ)) (draw : ℕ → ℝ) {out out' : ℕ → Bool} {ns : List ℕ}
    (h : ∀ n ∈ ns, out n = out' n) : recordAll confuse draw out ns = recordAll confuse draw out' ns := by
  induction ns using List.reverseRecOn with
  | nil => rfl
  | append_singleton ns n ih =>
    rw [recordAll_append, recordAll_append, ih (fun k hk => h k (by simp [hk])), h n (by simp)]

theorem recordAll_keys (confuse : Option ((ℕ → ℝ) → ℕ → Bool → Bool × ℕ)) (draw : ℕ → ℝ) (out : ℕ → Bool) (ns : List ℕ) (k : ℕ) :
    (∃ o, (recordAll confuse draw out ns).1.get? k = some o) ↔ k ∈ ns := by
  induction ns using List.reverseRecOn with
  | nil => simp [recordAll, PyDict.get?]
  | append_singleton ns n ih =>
    rw [recordAll_append, PyDict.get?_set]
    by_cases hk : n = k
    · subst hk; simp
    · rw [if_neg hk, ih]; simp [Ne.symm hk]

/-- Without confusion, the outcomes are recorded. -/
theorem recordAll_none (draw : ℕ → ℝ) (out : ℕ → Bool) (ns : List ℕ) (k : ℕ) (hk : k ∈ ns) :
    (recordAll none draw out ns).1.get? k = some (out k) := by
  induction ns using List.reverseRecOn with
  | nil => simp at hk
  | append_singleton ns n ih =>
    rw [recordAll_append, PyDict.get?_set]
    by_cases hkn : n = k
    · subst hkn; simp [confuseOf]
    · rw [if_neg hkn]; exact ih (by simpa [Ne.symm hkn] using hk)

theorem semRec_congr (rcd : ℕ → Bool) {out out' : ℕ → Bool} (c : Command) (h : ∀ n, c.measured? = some n → out n = out' n) :
    c.semRec rcd out = c.semRec rcd out' := by
  cases c with
  | M n m s t => funext ψ; simp only [Command.semRec, h n rfl]
  | N n s => rfl
  | E u v => rfl
  | C n c => rfl
  | X n d => rfl
  | Z n d => rfl
  | S n d => rfl
  | T => rfl

theorem dens_congr (chan : Noise → List (ℂ × (List Bool → List Bool → ℂ))) (rcd : ℕ → Bool) {out out' : ℕ → Bool} (c : CmdOrNoise)
    (h : ∀ n ∈ measuredIn (eraseNoise [c]), out n = out' n) : c.dens chan rcd out = c.dens chan rcd out' := by
  cases c with
  | noise a => rfl
  | cmd c =>
    funext ρ
    show conjBy _ _ = conjBy _ _
    rw [semRec_congr rcd c (out := out) (out' := out') (fun n hn => h n (by simp [eraseNoise_cmd, measuredIn, hn]))]

theorem densCmds_nil (chan : Noise → List (ℂ × (List Bool → List Bool → ℂ))) (rcd out : ℕ → Bool) (ρ : QDens) :
    densCmds chan rcd out [] ρ = ρ := rfl

theorem densCmds_congr (chan : Noise → List (ℂ × (List Bool → List Bool → ℂ))) (rcd : ℕ → Bool) {out out' : ℕ → Bool}
    {pre : List CmdOrNoise} (h : ∀ n ∈ measuredIn (eraseNoise pre), out n = out' n) (ρ : QDens) :
    densCmds chan rcd out pre ρ = densCmds chan rcd out' pre ρ := by
  induction pre using List.reverseRecOn with
  | nil => rw [densCmds_nil, densCmds_nil]
  | append_singleton pre c ih =>
    rw [densCmds_append, densCmds_append, ih (fun n hn => h n (by rw [eraseNoise_append, measuredIn_append]; simp [hn]))]
    simp only [densCmds, List.foldl_cons, List.foldl_nil]
    rw [dens_congr chan rcd c (fun n hn => h n (by rw [eraseNoise_append, measuredIn_append]; exact List.mem_append_right _ hn))]

/-- State of a run after `pre`, for the initial state `ρ₀`, when the projections had the outcomes `out`. -/
structure DMInv (env : DMEnv) (confuse : Option ((ℕ → ℝ) → ℕ → Bool → Bool × ℕ)) (inputs : List ℕ) (ρ₀ : QDens)
    (pre : List CmdOrNoise) (out : ℕ → Bool) (st : DMState) : Prop where
  idx : st.idx.Inv
  live : ∀ n, n ∈ st.idx.list ↔ Live inputs (eraseNoise pre) n
  shape : st.dm.Shape st.idx.list.length
  dens : IsDensity st.idx.list (absDens st.idx.list st.dm.rho)
  rcd : (st.results, st.draws) = recordAll confuse env.draw out (measuredIn (eraseNoise pre))
  sem : ∀ r, Agrees st.results r → ∃ c : ℝ, 0 < c ∧
    absDens st.idx.list st.dm.rho = (c : ℂ) • densCmds env.chan r out pre ρ₀

theorem DMInv.results {env : DMEnv} {confuse : Option ((ℕ → ℝ) → ℕ → Bool → Bool × ℕ)} {inputs : List ℕ} {ρ₀ : QDens}
    {pre : List CmdOrNoise} {out : ℕ → Bool} {st : DMState} (inv : DMInv env confuse inputs ρ₀ pre out st) (n : ℕ) :
    (∃ o, st.results.get? n = some o) ↔ n ∈ measuredIn (eraseNoise pre) := by
  have h := recordAll_keys confuse env.draw out (measuredIn (eraseNoise pre)) n
  rw [← inv.rcd] at h; exact h

/-- The probability weight of the outcomes `out`, recorded as `r`, after `pre`. -/
noncomputable def noisyProb (env : DMEnv) (inputs : List ℕ) (ρ₀ : QDens) (pre : List CmdOrNoise) (r out : ℕ → Bool) : ℂ :=
  traceOn (liveList inputs (eraseNoise pre)) (densCmds env.chan r out pre ρ₀)

theorem traceOn_mem {l l' : List ℕ} (h : ∀ n, n ∈ l ↔ n ∈ l') (ρ : QDens) : traceOn l ρ = traceOn l' ρ := by
  unfold traceOn
  have : l.toFinset = l'.toFinset := by ext n; simp [h]
  rw [this]

theorem checkDomain_ok {results : PyDict ℕ Bool} {d : Finset ℕ} (hd : ∀ j ∈ d, ∃ o, results.get? j = some o) :
    ∃ b, SimState.checkDomain results d = .ok b ∧ ∀ r, Agrees results r → parity r d = b := by
  obtain ⟨r0, hr0⟩ := exists_agrees results
  obtain ⟨s, hs, hpar⟩ := sumResults_parity hr0 d hd
  refine ⟨parity r0 d, by unfold SimState.checkDomain; rw [hs, ← hpar]; rfl, fun r hr => ?_⟩
  apply parity_congr
  intro j hj
  obtain ⟨o, ho⟩ := hd j hj
  rw [hr j o ho, hr0 j o ho]

theorem erase_eq_filter {l : List ℕ} (hl : l.Nodup) (n : ℕ) : l.erase n = l.filter (· ∉ [n]) := by
  rw [hl.erase_eq_filter]
  apply List.filter_congr
  intro a _
  simp [bne, Bool.beq_eq_decide_eq]

/-- What one measurement does. -/
theorem dm_step_measure {env : DMEnv} {confuse : Option ((ℕ → ℝ) → ℕ → Bool → Bool × ℕ)} {inputs : List ℕ} {ρ₀ : QDens}
    {pre : List CmdOrNoise} {out : ℕ → Bool} {st : DMState} (inv : DMInv env confuse inputs ρ₀ pre out st) (n : ℕ) (m : Measurement)
    (s t : Finset ℕ) (hal : Allowed inputs (eraseNoise pre) (.M n m s t)) :
    ∃ p0 : ℝ, 0 ≤ p0 ∧ p0 ≤ 1 ∧
      (∀ r o, Agrees st.results r → noisyProb env inputs ρ₀ (pre ++ [.cmd (.M n m s t)]) r (Function.update out n o) =
        ((if o then 1 - p0 else p0 : ℝ) : ℂ) * noisyProb env inputs ρ₀ pre r out) ∧
      ((∃ e, env.sel st.results n p0 = .error e ∧ st.step env confuse (.cmd (.M n m s t)) = .error e) ∨
       ∃ o, env.sel st.results n p0 = .ok o ∧
        ((st.step env confuse (.cmd (.M n m s t)) = .error .zeroDivisionError ∧ (if o then 1 - p0 else p0) = 0) ∨
          ∃ st', st.step env confuse (.cmd (.M n m s t)) = .ok st' ∧
            DMInv env confuse inputs ρ₀ (pre ++ [.cmd (.M n m s t)]) (Function.update out n o) st' ∧
            0 < (if o then 1 - p0 else p0))) := by
  obtain ⟨hlive, hs, ht⟩ := hal
  have hn : n ∈ st.idx.list := (inv.live n).2 hlive
  have hnm : n ∉ measuredIn (eraseNoise pre) := hlive.2
  have hsd : ∀ j ∈ s, ∃ o, st.results.get? j = some o := fun j hj => (inv.results j).2 (hs j hj)
  have htd : ∀ j ∈ t, ∃ o, st.results.get? j = some o := fun j hj => (inv.results j).2 (ht j hj)
  have hidx : st.idx.index n = .ok (st.idx.list.idxOf n) := inv.idx.index_ok hn
  have hpos : st.idx.list[st.idx.list.idxOf n]? = some n := List.getElem?_idxOf hn
  set l := st.idx.list with hl
  set l' := l.filter (· ∉ [n]) with hl'
  set ρ := absDens l st.dm.rho with hρ
  have hnd := inv.idx.nodup
  have htr : traceOn l ρ = 1 := inv.dens.trace
  obtain ⟨r0, hr0⟩ := exists_agrees st.results
  obtain ⟨m', hm', -⟩ := describe_spec hr0 m s t hsd htd
  have hd : ∀ r, Agrees st.results r → ∀ o n ψ, PhaseEq (projOut n (measVec m' o) ψ)
      (projOut n (measVec m o) (op1 (powB Ops.X (parity r s)) n (op1 (powB Ops.Z (parity r t)) n ψ))) := by
    intro r hr
    obtain ⟨m'', hm'', h⟩ := describe_spec hr m s t hsd htd
    rw [hm'] at hm''
    obtain rfl := Except.ok.inj hm''
    exact h
  have hmix : ∀ o, IsMixture (conjBy (projOut n (measVec m' o)) ρ) := fun o => inv.dens.mixture.conjBy (Lin.projOut _ _)
  choose P hP0 hP using fun o => (hmix o).trace_nonneg l'
  have hsum : P false + P true = 1 := by
    have := traceOn_projOut_sum hn (outer_measVec_sum m') ρ
    rw [← hl', hP, hP, htr] at this
    exact_mod_cast this
  have hPo : ∀ o : Bool, P o = if o then 1 - P false else P false := by
    intro o; cases o
    · simp
    · simp; linarith
  -- the projection, as the specification writes it
  have hproj : ∀ r, Agrees st.results r → ∀ o out', out' n = o →
      conjBy (projOut n (measVec m' o)) ρ = conjBy ((Command.M n m s t).semRec r out') ρ := by
    intro r hr o out' ho
    refine conjBy_phase (Lin.projOut _ _) (Command.semRec_lin _ _ _) (fun ψ => ?_) inv.dens.mixture
    simp only [Command.semRec, ho]
    exact hd r hr o n ψ
  have hdens : ∀ r o, densCmds env.chan r (Function.update out n o) (pre ++ [.cmd (.M n m s t)]) ρ₀ =
      conjBy ((Command.M n m s t).semRec r (Function.update out n o)) (densCmds env.chan r out pre ρ₀) := by
    intro r o
    rw [densCmds_append, densCmds_congr env.chan r (out := Function.update out n o) (out' := out) (pre := pre)]
    · simp only [densCmds, List.foldl_cons, List.foldl_nil, CmdOrNoise.dens]
    · intro k hk
      rw [Function.update_of_ne]
      rintro rfl; exact hnm hk
  have memlive : ∀ k, k ∈ l ↔ k ∈ liveList inputs (eraseNoise pre) := by
    intro k; rw [mem_liveList, ← inv.live]
  have memlive' : ∀ k, k ∈ l' ↔ k ∈ liveList inputs (eraseNoise (pre ++ [.cmd (.M n m s t)])) := by
    intro k
    rw [mem_liveList, eraseNoise_append, eraseNoise_cmd, live_measure, ← mem_liveList, ← memlive, hl']
    simp
  have hprob : ∀ r o, Agrees st.results r → noisyProb env inputs ρ₀ (pre ++ [.cmd (.M n m s t)]) r (Function.update out n o) =
        ((P o : ℝ) : ℂ) * noisyProb env inputs ρ₀ pre r out := by
    intro r o hr
    unfold noisyProb
    rw [← traceOn_mem memlive', ← traceOn_mem memlive, hdens]
    obtain ⟨c, hc, hsem⟩ := inv.sem r hr
    have hc0 : (c : ℂ) ≠ 0 := by exact_mod_cast hc.ne'
    have e1 : densCmds env.chan r out pre ρ₀ = (c : ℂ)⁻¹ • ρ := by
      rw [hρ, hsem, smul_smul, inv_mul_cancel₀ hc0, one_smul]
    rw [e1, conjBy_smul (Command.semRec_lin _ _ _).smul, ← hproj r hr o _ (Function.update_self _ _ _), traceOn_smul, traceOn_smul, hP, htr]
    ring
  refine ⟨P false, hP0 false, by have := hP0 true; linarith, fun r o hr => by rw [hprob r o hr, ← hPo], ?_⟩
  obtain ⟨dm1, x1, x2, x3⟩ := C56_expectation st.dm l hnd inv.shape (by rw [← hρ, htr]; exact one_ne_zero)
    (measureOperator m' false) _ n hpos
  rw [← hρ, htr, inv_one, one_smul] at x3
  rw [← hρ, htr, div_one, ← outer_measVec, traceOn_leftBy_outer hn, ← hl', hP, outer_measVec] at x1
  have hmeas : ∀ x, st.measureNode env n m' = x ↔ (do
      let outcome ← env.sel st.results n (P false)
      let dm ← dm1.projectQubit (.ofMat2 (measureOperator m' outcome)) (l.idxOf n)
      let idx ← st.idx.remove n
      return ({ st with dm := dm, idx := idx }, outcome)) = x := by
    intro x
    unfold DMState.measureNode
    rw [hidx]
    simp only [bind, Except.bind, x1, Complex.ofReal_im, Complex.ofReal_re, ne_eq, not_true_eq_false,
      if_false, pure, Except.pure]
  have hstep : st.step env confuse (.cmd (.M n m s t)) = (do
      let x ← st.measureNode env n m'
      return { x.1 with results := x.1.results.set n (confuseOf confuse env.draw x.1.draws x.2).1,
                        draws := (confuseOf confuse env.draw x.1.draws x.2).2 }) := by
    simp only [DMState.step, hm', bind, Except.bind]
    cases st.measureNode env n m' with
    | error e => rfl
    | ok x =>
      obtain ⟨st1, o⟩ := x
      cases confuse <;> rfl
  cases hsel : env.sel st.results n (P false) with
  | error e =>
    left
    refine ⟨e, rfl, ?_⟩
    have h1 : st.measureNode env n m' = .error e := by rw [hmeas, hsel]; rfl
    rw [hstep, h1]; rfl
  | ok o =>
    right
    refine ⟨o, rfl, ?_⟩
    rw [← hPo]
    obtain ⟨y1, y2⟩ := C56_project dm1 l hnd x2 (by rw [x3]; exact inv.dens.mixture) (measVec m' o) (measVec_unit m' o) _ n hpos
    rw [x3, ← hl', hP, outer_measVec] at y1 y2
    rcases (hP0 o).lt_or_eq with hpos' | hzero
    · right
      obtain ⟨dm2, z1, z2, z3, z4⟩ := y2 (by exact_mod_cast hpos'.ne')
      obtain ⟨idx', hi1, hi2, hi3⟩ := inv.idx.remove hn
      rw [← hl, erase_eq_filter hnd, ← hl'] at hi3
      refine ⟨⟨dm2, idx', st.results.set n (confuseOf confuse env.draw st.draws o).1, (confuseOf confuse env.draw st.draws o).2⟩,
        ?_, ?_, hpos'⟩
      · have h3 : st.measureNode env n m' = .ok (⟨dm2, idx', st.results, st.draws⟩, o) := by
          rw [hmeas, hsel]; simp only [bind, Except.bind, z1, hi1]; rfl
        rw [hstep, h3]; rfl
      · refine ⟨hi2, fun k => ?_, ?_, ?_, ?_, fun r hr => ?_⟩
        · rw [hi3, memlive', mem_liveList]
        · simp only [hi3]; exact z2
        · simp only [hi3]; exact z4
        · rw [eraseNoise_append, measuredIn_append, eraseNoise_cmd]
          have e1 : measuredIn (eraseNoise pre) ++ List.filterMap Command.measured? [Command.M n m s t] =
              measuredIn (eraseNoise pre) ++ [n] := rfl
          rw [e1, recordAll_append, recordAll_congr confuse env.draw (out := Function.update out n o) (out' := out)
            (ns := measuredIn (eraseNoise pre)) (fun k hk => Function.update_of_ne (by rintro rfl; exact hnm hk) _ _), ← inv.rcd,
            Function.update_self]
        · have hr' : Agrees st.results r := by
            intro j o' hj
            apply hr j o'
            simp only []
            rw [PyDict.get?_set, if_neg, hj]
            rintro rfl
            exact hnm ((inv.results n).1 ⟨o', hj⟩)
          obtain ⟨c, hc, hsem⟩ := inv.sem r hr'
          refine ⟨(P o)⁻¹ * c, mul_pos (inv_pos.2 hpos') hc, ?_⟩
          simp only [hi3]
          rw [z3, hproj r hr' o (Function.update out n o) (Function.update_self _ _ _), hdens, hρ, hsem,
            conjBy_smul (Command.semRec_lin _ _ _).smul, smul_smul]
          push_cast; rfl
    · left
      refine ⟨?_, hzero.symm⟩
      have h1 := y1 (by rw [← hzero]; simp)
      have h3 : st.measureNode env n m' = .error .zeroDivisionError := by rw [hmeas, hsel]; simp only [bind, Except.bind, h1]
      rw [hstep, h3]; rfl

end Graphix
