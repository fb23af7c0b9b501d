import Verif.Proofs.TensorNetStep
import Verif.Props.Simulator

/-!
# The run of a pattern with the tensor-network backend
-/

namespace Graphix

open Function

/-- The vector that the backend projects on is the eigenvector of the outcome, up to a phase. -/
theorem outcomeVec_phase (m : Measurement) (o : Bool) : ∃ c : ℂ, ‖c‖ = 1 ∧ TnState.outcomeVec m o = c • measVec m o := by
  unfold TnState.outcomeVec measVec PlanarState.vec
  cases o
  · exact ⟨1, by simp, by simp⟩
  · generalize m.toBloch.angle = α
    have hs : Real.sin ((α + 1) * Real.pi / 2) = Real.cos (α * Real.pi / 2) := by
      rw [show (α + 1) * Real.pi / 2 = α * Real.pi / 2 + Real.pi / 2 by ring, Real.sin_add_pi_div_two]
    have hc : Real.cos ((α + 1) * Real.pi / 2) = -Real.sin (α * Real.pi / 2) := by
      rw [show (α + 1) * Real.pi / 2 = α * Real.pi / 2 + Real.pi / 2 by ring, Real.cos_add_pi_div_two]
    have he : Complex.exp (Complex.I * (((α + 1) * Real.pi : ℝ) : ℂ)) = -Complex.exp (Complex.I * ((α * Real.pi : ℝ) : ℂ)) := by
      rw [show Complex.I * (((α + 1) * Real.pi : ℝ) : ℂ) = Complex.I * ((α * Real.pi : ℝ) : ℂ) + Real.pi * Complex.I by push_cast; ring,
        Complex.exp_add, Complex.exp_pi_mul_I]; ring
    cases m.toBloch.plane
    · refine ⟨1, by simp, ?_⟩
      funext x
      simp only [if_true, Plane.orth, Ops.fromAxis, planarState, he, one_smul]
      cases x <;> simp [Ops.Z, mat2] <;> ring
    · refine ⟨-Complex.I, by simp, ?_⟩
      funext x
      simp only [if_true, Plane.orth, Ops.fromAxis, planarState, hs, hc, Pi.smul_apply, smul_eq_mul]
      cases x <;> simp [Ops.X, mat2, -Complex.ofReal_cos, -Complex.ofReal_sin]
      rw [← mul_assoc, Complex.I_mul_I]; ring
    · refine ⟨Complex.I, by simp, ?_⟩
      funext x
      simp only [if_true, Plane.orth, Ops.fromAxis, planarState, hs, hc, Pi.smul_apply, smul_eq_mul]
      cases x <;> simp [Ops.Y, mat2, -Complex.ofReal_cos, -Complex.ofReal_sin]

theorem projOut_vec_smul (n : ℕ) (c : ℂ) (v : Bool → ℂ) (ψ : QState) : projOut n (c • v) ψ = star c • projOut n v ψ := by
  funext b
  simp only [projOut, Pi.smul_apply, smul_eq_mul, star_mul']
  ring

/-- No tensor has the dangling indices of two nodes. -/
def Sep (tn : TensorNet) (L : Finset ℕ) : Prop :=
  ∀ t ∈ tn.tensors, ∀ n ∈ L, ∀ m ∈ L, tn.d n ∈ t.inds → tn.d m ∈ t.inds → n = m

theorem closeFirst_inds {i : ℕ} {t : QTensor} : ∀ {ts : List QTensor}, t ∈ closeFirst i ts → ∃ t' ∈ ts, t'.inds = t.inds
  | [], h => by simp [closeFirst] at h
  | t0 :: ts, h => by
    unfold closeFirst at h
    split at h
    · rcases List.mem_cons.1 h with rfl | h
      · exact ⟨t0, by simp, rfl⟩
      · exact ⟨t, by simp [h], rfl⟩
    · rcases List.mem_cons.1 h with rfl | h
      · exact ⟨t, by simp, rfl⟩
      · obtain ⟨t', h1, h2⟩ := closeFirst_inds h
        exact ⟨t', by simp [h1], h2⟩

namespace Represents

variable {tn : TensorNet} {L J : Finset ℕ} {ψ : QState}

theorem sep_addVec (h : Represents tn L J ψ) (hs : Sep tn L) {n : ℕ} (hn : n ∉ L) (v : Bool → ℂ) (o : Bool) :
    Sep { tn with tensors := tn.tensors ++ [vecTensor v tn.fresh n o], fresh := tn.fresh + 1, dangling := tn.dangling.set n tn.fresh }
      (insert n L) := by
  obtain ⟨ts, f, dn, out⟩ := tn
  have hd : ∀ m, TensorNet.d ⟨ts ++ [vecTensor v f n o], f + 1, dn.set n f, out⟩ m = if m = n then f else TensorNet.d ⟨ts, f, dn, out⟩ m :=
    fun m => d_set _ _ _ _ _ _ _
  have hf : ∀ t ∈ ts, f ∉ t.inds := fun t ht hc => absurd (h.fresh_inds (mem_allInds.2 ⟨t, ht, hc⟩)) (lt_irrefl f)
  intro t ht a ha b hb hda hdb
  rw [hd] at hda hdb
  simp only [List.mem_append, List.mem_singleton] at ht
  have key : ∀ a ∈ insert n L, (if a = n then f else TensorNet.d ⟨ts, f, dn, out⟩ a) ∈ t.inds → (t ∈ ts → a ∈ L) ∧ (t = vecTensor v f n o → a = n) := by
    intro a ha hda
    by_cases han : a = n
    · rw [if_pos han] at hda
      exact ⟨fun ht => absurd hda (hf t ht), fun _ => han⟩
    · rw [if_neg han] at hda
      have haL : a ∈ L := (Finset.mem_insert.1 ha).resolve_left han
      refine ⟨fun _ => haL, ?_⟩
      rintro rfl
      have := h.freshD a haL
      simp only [vecTensor, List.mem_singleton] at hda
      simp only at this
      omega
  rcases ht with ht | ht
  · have h1 := (key a ha hda).1 ht
    have h2 := (key b hb hdb).1 ht
    rw [if_neg (fun hc : a = n => hn (hc ▸ h1))] at hda
    rw [if_neg (fun hc : b = n => hn (hc ▸ h2))] at hdb
    exact hs t ht a h1 b h2 hda hdb
  · rw [(key a ha hda).2 ht, (key b hb hdb).2 ht]

theorem sep_evolve1 (h : Represents tn L J ψ) (hs : Sep tn L) {n : ℕ} (hn : n ∈ L) (U : Mat2) :
    Sep { tn with
      tensors := closeFirst (tn.d n) tn.tensors ++ [matTensor U tn.fresh (tn.d n) n], fresh := tn.fresh + 1, dangling := tn.dangling.set n tn.fresh }
      L := by
  obtain ⟨ts, f, dn, out⟩ := tn
  set D := TensorNet.d ⟨ts, f, dn, out⟩ with hD
  have hd : ∀ m, TensorNet.d ⟨closeFirst (D n) ts ++ [matTensor U f (D n) n], f + 1, dn.set n f, out⟩ m = if m = n then f else D m :=
    fun m => d_set _ _ _ _ _ _ _
  have hf : ∀ t ∈ ts, f ∉ t.inds := fun t ht hc => absurd (h.fresh_inds (mem_allInds.2 ⟨t, ht, hc⟩)) (lt_irrefl f)
  intro t ht a ha b hb hda hdb
  rw [hd] at hda hdb
  simp only [List.mem_append, List.mem_singleton] at ht
  rcases ht with ht | rfl
  · obtain ⟨t', ht', e⟩ := closeFirst_inds ht
    rw [← e] at hda hdb
    have key : ∀ a, (if a = n then f else D a) ∈ t'.inds → D a ∈ t'.inds := by
      intro a hda
      split at hda
      · exact absurd hda (hf t' ht')
      · exact hda
    exact hs t' ht' a ha b hb (key a hda) (key b hdb)
  · have key : ∀ a ∈ L, (if a = n then f else D a) ∈ (matTensor U f (D n) n).inds → a = n := by
      intro a ha hda
      by_contra hc
      rw [if_neg hc] at hda
      simp only [matTensor, List.mem_cons, List.not_mem_nil, or_false] at hda
      have := h.freshD a ha
      rcases hda with e | e
      · simp only [← hD] at this; omega
      · exact hc (h.inj a ha n hn e)
    rw [key a ha hda, key b hb hdb]

theorem sep_project1 (hs : Sep tn L) {n : ℕ} (v : Bool → ℂ) :
    (h : Represents tn L J ψ) → n ∈ L → Sep { tn with tensors := closeFirst (tn.d n) tn.tensors ++ [(vecTensor v (tn.d n) n false).conj] } (L.erase n) := by
  intro h hn t ht a ha b hb hda hdb
  change tn.d a ∈ _ at hda
  change tn.d b ∈ _ at hdb
  have haL := Finset.mem_of_mem_erase ha
  have hbL := Finset.mem_of_mem_erase hb
  simp only [List.mem_append, List.mem_singleton] at ht
  rcases ht with ht | rfl
  · obtain ⟨t', ht', e⟩ := closeFirst_inds ht
    rw [← e] at hda hdb
    exact hs t' ht' a haL b hbL hda hdb
  · exfalso
    simp only [QTensor.conj, vecTensor, List.mem_singleton] at hda
    exact Finset.ne_of_mem_erase ha (h.inj a haL n hn hda)

theorem sep_entangle (h : Represents tn L J ψ) (hs : Sep tn L) {u w : ℕ} (hu : u ∈ L) (hw : w ∈ L) (A B : Bool → Bool → Bool → ℂ) :
    Sep { tn with
      tensors := closeFirst (tn.d w) (closeFirst (tn.d u) tn.tensors) ++
        [cubeTensor A tn.fresh (tn.d u) (tn.fresh + 2) u, cubeTensor B (tn.fresh + 2) (tn.fresh + 1) (tn.d w) w]
      fresh := tn.fresh + 3
      dangling := (tn.dangling.set u tn.fresh).set w (tn.fresh + 1) } L := by
  obtain ⟨ts, f, dn, out⟩ := tn
  set D := TensorNet.d ⟨ts, f, dn, out⟩ with hD
  have hd : ∀ m, TensorNet.d ⟨closeFirst (D w) (closeFirst (D u) ts) ++ [cubeTensor A f (D u) (f + 2) u, cubeTensor B (f + 2) (f + 1) (D w) w], f + 3,
      (dn.set u f).set w (f + 1), out⟩ m = if m = w then f + 1 else if m = u then f else D m := by
    intro m
    rw [d_set, PyDict.get?_set]
    by_cases hmw : m = w
    · rw [if_pos hmw, if_pos hmw]
    · rw [if_neg hmw, if_neg hmw]
      by_cases hmu : u = m
      · rw [if_pos hmu, if_pos hmu.symm]; rfl
      · rw [if_neg hmu, if_neg (Ne.symm hmu)]; rfl
  have hf : ∀ t ∈ ts, ∀ i ∈ t.inds, i < f := fun t ht i hc => h.fresh_inds (mem_allInds.2 ⟨t, ht, hc⟩)
  have hlt : ∀ a ∈ L, D a < f := fun a ha => h.freshD a ha
  intro t ht a ha b hb hda hdb
  rw [hd] at hda hdb
  simp only [List.mem_append, List.mem_cons, List.not_mem_nil, or_false] at ht
  rcases ht with ht | rfl | rfl
  · obtain ⟨t1, ht1, e1⟩ := closeFirst_inds ht
    obtain ⟨t', ht', e⟩ := closeFirst_inds ht1
    rw [← e1, ← e] at hda hdb
    have key : ∀ a, (if a = w then f + 1 else if a = u then f else D a) ∈ t'.inds → D a ∈ t'.inds := by
      intro a hda
      have := hf t' ht' _ hda
      split at hda
      · rename_i hc; rw [if_pos hc] at this; omega
      · rename_i hc
        rw [if_neg hc] at this
        split at hda
        · rename_i hc'; rw [if_pos hc'] at this; omega
        · exact hda
    exact hs t' ht' a ha b hb (key a hda) (key b hdb)
  · have key : ∀ a ∈ L, (if a = w then f + 1 else if a = u then f else D a) ∈ (cubeTensor A f (D u) (f + 2) u).inds → a = u := by
      intro a ha hda
      by_contra hc
      have h1 := hlt a ha
      have h2 := hlt u hu
      have h3 := hlt w hw
      simp only [cubeTensor, List.mem_cons, List.not_mem_nil, or_false] at hda
      by_cases haw : a = w
      · rw [if_pos haw] at hda; omega
      · rw [if_neg haw, if_neg hc] at hda
        rcases hda with e | e | e
        · omega
        · exact hc (h.inj a ha u hu e)
        · omega
    rw [key a ha hda, key b hb hdb]
  · have key : ∀ a ∈ L, (if a = w then f + 1 else if a = u then f else D a) ∈ (cubeTensor B (f + 2) (f + 1) (D w) w).inds → a = w := by
      intro a ha hda
      by_contra hc
      have h1 := hlt a ha
      have h2 := hlt u hu
      have h3 := hlt w hw
      simp only [cubeTensor, List.mem_cons, List.not_mem_nil, or_false] at hda
      rw [if_neg hc] at hda
      by_cases hau : a = u
      · rw [if_pos hau] at hda; omega
      · rw [if_neg hau] at hda
        rcases hda with e | e | e
        · omega
        · omega
        · exact hc (h.inj a ha w hw e)
    rw [key a ha hda, key b hb hdb]

/-- Two tensors at least have one of the two indices. -/
theorem two_tensors (h : Represents tn L J ψ) (hs : Sep tn L) {u w : ℕ} (hu : u ∈ L) (hw : w ∈ L) (huw : u ≠ w) :
    2 ≤ tn.tensors.countP fun t => tn.d u ∈ t.inds || tn.d w ∈ t.inds := by
  have h1 := h.occ1 u hu
  have h2 := h.occ1 w hw
  unfold indCount at h1 h2
  have key : ∀ ts : List QTensor, (∀ t ∈ ts, ¬ (tn.d u ∈ t.inds ∧ tn.d w ∈ t.inds)) →
      (ts.countP fun t => tn.d u ∈ t.inds) + (ts.countP fun t => tn.d w ∈ t.inds) = ts.countP fun t => tn.d u ∈ t.inds || tn.d w ∈ t.inds := by
    intro ts
    induction ts with
    | nil => intro _; rfl
    | cons t ts ih =>
      intro ht
      have := ht t (by simp)
      have ih' := ih fun t ht' => ht t (by simp [ht'])
      simp only [List.countP_cons]
      rw [← ih']
      by_cases ha : tn.d u ∈ t.inds <;> by_cases hb : tn.d w ∈ t.inds
      · exact absurd ⟨ha, hb⟩ this
      all_goals simp [ha, hb]; try omega
  rw [← key tn.tensors fun t ht hc => huw (hs t ht u hu w hw hc.1 hc.2), h1, h2]

end Represents

/-- The state of a run with the tensor-network backend after the commands `pre`. -/
structure TnInv (env : TnEnv) (inputs : List ℕ) (ψ₀ : QState) (iso : Finset ℕ) (outs : List ℕ) (par : Bool) (pre : List Command) (st : TnState) :
    Prop where
  results : ∀ n, (∃ o, st.results.get? n = some o) ↔ n ∈ measuredIn pre
  parallel : st.parallel = par
  iso : st.isolated = iso
  outs : st.net.outputs = some outs
  chosen : ∀ pre1 n m s t post1, pre = pre1 ++ Command.M n m s t :: post1 → ∃ (res : PyDict ℕ Bool) (o : Bool),
    (∀ k, (∃ o, res.get? k = some o) ↔ k ∈ measuredIn pre1) ∧ (∀ k o', res.get? k = some o' → st.results.get? k = some o') ∧
    env.sel res n (1 / 2) = .ok o ∧ st.results.get? n = some o
  sep : Sep st.net (liveList inputs pre).toFinset
  rep : ∀ r, Agrees st.results r → ∃ (J : Finset ℕ) (c : ℂ), ‖c‖ = 1 ∧
    Represents st.net (liveList inputs pre).toFinset J ((c * (Real.sqrt 2 : ℂ) ^ (measuredIn pre).length) • semCmds r pre ψ₀)

section

variable {env : TnEnv} {inputs : List ℕ} {ψ₀ : QState} {iso : Finset ℕ} {outs : List ℕ} {par : Bool} {pre : List Command} {st : TnState}

theorem mem_live_finset (n : ℕ) : n ∈ (liveList inputs pre).toFinset ↔ Live inputs pre n := by
  rw [List.mem_toFinset, mem_liveList]

theorem chosen_snoc {c : Command} (h : c.measured? = none) {P : List Command → ℕ → Prop}
    (hp : ∀ pre1 n m s t post1, pre = pre1 ++ Command.M n m s t :: post1 → P pre1 n) :
    ∀ pre1 n m s t post1, pre ++ [c] = pre1 ++ Command.M n m s t :: post1 → P pre1 n := by
  intro pre1 n m s t post1 e
  rcases List.eq_nil_or_concat post1 with rfl | ⟨post', d, rfl⟩
  · have := (List.append_inj' e rfl).2
    simp only [List.cons.injEq, and_true] at this
    subst this
    simp [Command.measured?] at h
  · rw [List.concat_eq_append, ← List.cons_append, ← List.append_assoc] at e
    exact hp pre1 n m s t post' (List.append_inj' e rfl).1

/-- A command that neither prepares nor measures. -/
theorem TnInv.other (inv : TnInv env inputs ψ₀ iso outs par pre st) {c : Command} (h1 : c.prepared? = none) (h2 : c.measured? = none)
    {net : TensorNet} (ho : net.outputs = some outs) (hsep : Sep net (liveList inputs pre).toFinset)
    (hrep : ∀ r, Agrees st.results r → ∀ J ψ, Represents st.net (liveList inputs pre).toFinset J ψ → ∃ J',
      Represents net (liveList inputs pre).toFinset J' (c.sem r ψ)) :
    TnInv env inputs ψ₀ iso outs par (pre ++ [c]) { st with net := net } := by
  have hm : measuredIn (pre ++ [c]) = measuredIn pre := by simp [measuredIn, h2]
  have hl : (liveList inputs (pre ++ [c])).toFinset = (liveList inputs pre).toFinset := by
    ext n; rw [mem_live_finset, mem_live_finset, (live_other h1 h2 n).1]
  refine ⟨fun n => ?_, inv.parallel, inv.iso, ho, chosen_snoc h2 inv.chosen, by rw [hl]; exact hsep, fun r hr => ?_⟩
  · rw [hm]; exact inv.results n
  · obtain ⟨J, k, hk, hR⟩ := inv.rep r hr
    obtain ⟨J', hR'⟩ := hrep r hr J _ hR
    refine ⟨J', k, hk, ?_⟩
    rw [hl, hm]
    refine hR'.congr_state ?_
    rw [c.sem_homog, semCmds_append]; rfl

theorem applySingle_tn (inv : TnInv env inputs ψ₀ iso outs par pre st) {n : ℕ} (hn : Live inputs pre n) (U : Mat2) :
    ∃ net, st.applySingle n U = .ok { st with net := net } ∧ net.outputs = some outs ∧ Sep net (liveList inputs pre).toFinset ∧
      ∀ J ψ, Represents st.net (liveList inputs pre).toFinset J ψ → ∃ J', Represents net (liveList inputs pre).toFinset J' (op1 U n ψ) := by
  obtain ⟨r0, hr0⟩ := exists_agrees st.results
  obtain ⟨J0, c0, -, hR0⟩ := inv.rep r0 hr0
  have hd := hR0.dang_ok ((mem_live_finset n).2 hn)
  refine ⟨{ st.net with tensors := _, fresh := st.net.fresh + 1, dangling := _ }, ?_, inv.outs, hR0.sep_evolve1 inv.sep ((mem_live_finset n).2 hn) U, fun J ψ hR => ⟨_, hR.evolve1 ((mem_live_finset n).2 hn) U⟩⟩
  unfold TnState.applySingle TensorNet.evolveSingle
  rw [hd]
  rfl

/-- Commands other than measurements, for the sequential preparation, or for commands that do not prepare the graph state. -/
theorem step_tn (henv : CzFactors env.cz1 env.cz2) (inv : TnInv env inputs ψ₀ iso outs par pre st)
    (hsub : ∀ n ∈ measuredIn pre, n ∈ introduced inputs pre) {c : Command} (hal : Allowed inputs pre c) (hm : c.measured? = none)
    (hS : ∀ n d, c ≠ .S n d) (hN : ∀ n s, c = .N n s → s = PlanarState.plus) (hE : ∀ u v, c = .E u v → u ≠ v)
    (hpar : par = true → (∀ n s, c ≠ .N n s) ∧ ∀ u v, c ≠ .E u v) :
    ∃ st', st.step env c = .ok st' ∧ TnInv env inputs ψ₀ iso outs par (pre ++ [c]) st' := by
  obtain ⟨r0, hr0⟩ := exists_agrees st.results
  obtain ⟨J0, c0, -, hR0⟩ := inv.rep r0 hr0
  have pauli : ∀ (n : ℕ) (d : Finset ℕ) (U : Mat2), Live inputs pre n →
      (∀ k ∈ d, k ∈ measuredIn pre) → ∀ c : Command, c.prepared? = none → c.measured? = none →
      (∀ r ψ, c.sem r ψ = op1 (powB U (parity r d)) n ψ) →
      st.step env c = (do
        if ← SimState.checkDomain st.results d then st.applySingle n U else return st) →
      ∃ st', st.step env c = .ok st' ∧ TnInv env inputs ψ₀ iso outs par (pre ++ [c]) st' := by
    intro n d U hn hd c h1 h2 hsem hstep
    have hdd : ∀ j ∈ d, ∃ o, st.results.get? j = some o := fun j hj => (inv.results j).2 (hd j hj)
    obtain ⟨s, hs, hpar⟩ := sumResults_parity hr0 d hdd
    have hpar' : ∀ r, Agrees st.results r → parity r d = parity r0 d := by
      intro r hr
      apply parity_congr
      intro j hj
      obtain ⟨o, ho⟩ := hdd j hj
      rw [hr j o ho, hr0 j o ho]
    have hcheck : SimState.checkDomain st.results d = .ok (parity r0 d) := by
      unfold SimState.checkDomain; rw [hs, ← hpar]; rfl
    rw [hstep, hcheck]
    cases hp : parity r0 d with
    | true =>
      obtain ⟨net, e1, e2, es, e3⟩ := applySingle_tn inv hn U
      refine ⟨_, e1, inv.other h1 h2 e2 es (fun r hr J ψ hR => ?_)⟩
      rw [hsem, hpar' r hr, hp]; exact e3 J ψ hR
    | false =>
      refine ⟨st, rfl, inv.other h1 h2 inv.outs inv.sep (fun r hr J ψ hR => ⟨J, ?_⟩)⟩
      rw [hsem, hpar' r hr, hp]
      simpa only [powB, Bool.false_eq_true, if_false, op1_one] using hR
  cases c with
  | M n m s t => simp [Command.measured?] at hm
  | S n d => exact absurd rfl (hS n d)
  | T => exact ⟨st, rfl, inv.other rfl rfl inv.outs inv.sep fun r hr J ψ hR => ⟨J, hR⟩⟩
  | C n c =>
    obtain ⟨net, e1, e2, es, e3⟩ := applySingle_tn inv hal c.matrix
    exact ⟨_, e1, inv.other rfl rfl e2 es fun r hr J ψ hR => e3 J ψ hR⟩
  | X n d => exact pauli n d Ops.X hal.1 hal.2 _ rfl rfl (fun r ψ => rfl) rfl
  | Z n d => exact pauli n d Ops.Z hal.1 hal.2 _ rfl rfl (fun r ψ => rfl) rfl
  | E u v =>
    have hp : par = false := by
      cases par with
      | false => rfl
      | true => exact absurd rfl ((hpar rfl).2 u v)
    have hu := (mem_live_finset u).2 hal.1
    have hv := (mem_live_finset v).2 hal.2
    have huv := hE u v rfl
    refine ⟨_, ?_, inv.other rfl rfl (net := { st.net with
        tensors := closeFirst (st.net.d v) (closeFirst (st.net.d u) st.net.tensors) ++
          [cubeTensor env.cz1 st.net.fresh (st.net.d u) (st.net.fresh + 2) u, cubeTensor env.cz2 (st.net.fresh + 2) (st.net.fresh + 1) (st.net.d v) v]
        fresh := st.net.fresh + 3
        dangling := (st.net.dangling.set u st.net.fresh).set v (st.net.fresh + 1) }) inv.outs (hR0.sep_entangle inv.sep hu hv _ _)
      fun r hr J ψ hR => ⟨_, hR.entangle hu hv huv henv⟩⟩
    simp only [TnState.step, TnState.entangleNodes, inv.parallel, hp, hR0.dang_ok hu, hR0.dang_ok hv, bind, Except.bind, pure, Except.pure]
    rw [if_neg (by simp), if_neg]
    exact not_lt.2 (hR0.two_tensors inv.sep hu hv huv)
  | N n s =>
    have hp : par = false := by
      cases par with
      | false => rfl
      | true => exact absurd rfl ((hpar rfl).1 n s)
    have hs := hN n s rfl
    subst hs
    have hfresh : n ∉ introduced inputs pre := hal
    have hnl : n ∉ (liveList inputs pre).toFinset := fun h => hfresh ((mem_live_finset n).1 h).1
    have hnm : n ∉ measuredIn pre := fun h => hfresh (hsub n h)
    have hl : (liveList inputs (pre ++ [.N n PlanarState.plus])).toFinset = insert n (liveList inputs pre).toFinset := by
      ext k
      rw [Finset.mem_insert, mem_live_finset, mem_live_finset]
      simp only [Live, introduced_append, measuredIn_append, Command.prepared?,
        Command.measured?, List.filterMap_cons, List.filterMap_nil, List.append_nil, List.mem_append,
        List.mem_singleton]
      constructor
      · rintro ⟨h | rfl, h2⟩
        · exact Or.inr ⟨h, h2⟩
        · exact Or.inl rfl
      · rintro (rfl | h)
        · exact ⟨Or.inr rfl, hnm⟩
        · exact ⟨Or.inl h.1, h.2⟩
    have hm' : measuredIn (pre ++ [.N n PlanarState.plus]) = measuredIn pre := by simp [measuredIn, Command.measured?]
    refine ⟨{ st with net := { st.net with
      tensors := st.net.tensors ++ [vecTensor PlanarState.plus.vec st.net.fresh n true]
      fresh := st.net.fresh + 1
      dangling := st.net.dangling.set n st.net.fresh } }, ?_, ?_⟩
    · simp only [TnState.step, TnState.addNode, TnState.addNodes, inv.parallel, hp]
      rw [if_neg (by simp)]
      rfl
    · refine ⟨fun k => by rw [hm']; exact inv.results k, inv.parallel, inv.iso, inv.outs, chosen_snoc rfl inv.chosen, by rw [hl]; exact hR0.sep_addVec inv.sep hnl _ _, fun r hr => ?_⟩
      obtain ⟨J, k, hk, hR⟩ := inv.rep r hr
      refine ⟨J, k, hk, ?_⟩
      rw [hl, hm']
      refine (hR.addVec hnl PlanarState.plus.vec true).congr_state ?_
      rw [prep_smul, semCmds_append]; rfl

/-- A measurement of a node that is not isolated. -/
theorem step_tn_measure (inv : TnInv env inputs ψ₀ iso outs par pre st) {n : ℕ} {m : Measurement} {s t : Finset ℕ}
    (hal : Allowed inputs pre (.M n m s t)) (hiso : n ∉ iso) (hsel : ∃ o, env.sel st.results n (1 / 2) = .ok o)
    (hsel' : ∃ o, env.selAgain st.results n (1 / 2) = .ok o) :
    ∃ st', st.step env (.M n m s t) = .ok st' ∧ TnInv env inputs ψ₀ iso outs par (pre ++ [.M n m s t]) st' := by
  obtain ⟨hlive, hs, ht⟩ := hal
  obtain ⟨o, ho⟩ := hsel
  obtain ⟨o', ho'⟩ := hsel'
  have hnL := (mem_live_finset n).2 hlive
  have hnm : n ∉ measuredIn pre := hlive.2
  have hsd : ∀ j ∈ s, ∃ o, st.results.get? j = some o := fun j hj => (inv.results j).2 (hs j hj)
  have htd : ∀ j ∈ t, ∃ o, st.results.get? j = some o := fun j hj => (inv.results j).2 (ht j hj)
  obtain ⟨r0, hr0⟩ := exists_agrees st.results
  obtain ⟨J0, c0, -, hR0⟩ := inv.rep r0 hr0
  obtain ⟨m', hm', -⟩ := describe_spec hr0 m s t hsd htd
  have hd : ∀ r, Agrees st.results r → ∀ o n ψ, PhaseEq (projOut n (measVec m' o) ψ)
      (projOut n (measVec m o) (op1 (powB Ops.X (parity r s)) n (op1 (powB Ops.Z (parity r t)) n ψ))) := by
    intro r hr
    obtain ⟨m'', hm'', h⟩ := describe_spec hr m s t hsd htd
    rw [hm'] at hm''
    obtain rfl := Except.ok.inj hm''
    exact h
  have hl : (liveList inputs (pre ++ [.M n m s t])).toFinset = (liveList inputs pre).toFinset.erase n := by
    ext k
    rw [Finset.mem_erase, mem_live_finset, mem_live_finset, live_measure]
    tauto
  have hmm : measuredIn (pre ++ [.M n m s t]) = measuredIn pre ++ [n] := by simp [measuredIn, Command.measured?]
  have hnone : st.results.get? n = none := by
    by_contra hc
    obtain ⟨x, hx⟩ := Option.ne_none_iff_exists'.1 hc
    exact hnm ((inv.results n).1 ⟨x, hx⟩)
  have hkeep : ∀ k x, st.results.get? k = some x → (st.results.set n o).get? k = some x := by
    intro k x hx
    rw [PyDict.get?_set, if_neg, hx]
    rintro rfl
    rw [hnone] at hx; cases hx
  set v : Bool → ℂ := fun x => TnState.outcomeVec m' o x * ((Real.sqrt 2 : ℝ) : ℂ) with hv
  refine ⟨⟨{ st.net with tensors := closeFirst (st.net.d n) st.net.tensors ++ [(vecTensor v (st.net.d n) n false).conj] }, st.parallel, st.isolated,
    st.results.set n o⟩, ?_, ?_⟩
  · simp only [TnState.step, hm', TnState.measureNode, TensorNet.project, bind, Except.bind, pure, Except.pure, inv.iso, hiso, decide_false,
      Bool.false_eq_true, if_false, ho, ho', hR0.dang_ok hnL]
    rfl
  · refine ⟨fun k => ?_, inv.parallel, inv.iso, inv.outs, ?_, ?_, fun r hr => ?_⟩
    · dsimp only
      rw [PyDict.get?_set, hmm, List.mem_append, List.mem_singleton]
      by_cases hk : n = k
      · subst hk; simp
      · rw [if_neg hk, inv.results]
        simp [Ne.symm hk]
    · intro pre1 n1 m1 s1 t1 post1 e
      dsimp only
      rcases List.eq_nil_or_concat post1 with rfl | ⟨post', d, rfl⟩
      · obtain ⟨e1, e2⟩ := List.append_inj' e rfl
        simp only [List.cons.injEq, and_true, Command.M.injEq] at e2
        obtain ⟨rfl, -, -, -⟩ := e2
        subst e1
        exact ⟨st.results, o, inv.results, hkeep, ho, PyDict.get?_set_self _ _ _⟩
      · rw [List.concat_eq_append, ← List.cons_append, ← List.append_assoc] at e
        obtain ⟨res, o1, a1, a2, a3, a4⟩ := inv.chosen pre1 n1 m1 s1 t1 post' (List.append_inj' e rfl).1
        exact ⟨res, o1, a1, fun k x hx => hkeep k x (a2 k x hx), a3, hkeep _ _ a4⟩
    · rw [hl]; exact Represents.sep_project1 inv.sep _ hR0 hnL
    · have hr' : Agrees st.results r := fun k x hx => hr k x (hkeep k x hx)
      have hrn : r n = o := hr n o (PyDict.get?_set_self _ _ _)
      obtain ⟨J, c, hc, hR⟩ := inv.rep r hr'
      obtain ⟨k, hk, hov⟩ := outcomeVec_phase m' o
      obtain ⟨d, hd1, hd2⟩ := hd r hr' o n (semCmds r pre ψ₀)
      refine ⟨insert (st.net.d n) J, star k * d * c, by simp [hk, hd1, hc], ?_⟩
      rw [hl]
      refine (hR.project1 hnL v).congr_state ?_
      have hvk : v = (k * ((Real.sqrt 2 : ℝ) : ℂ)) • measVec m' o := by
        funext x
        rw [hv]
        simp only [hov, Pi.smul_apply, smul_eq_mul]
        ring
      rw [hvk, projOut_vec_smul, projOut_smul, hd2, semCmds_append, semCmds_cons, semCmds_nil, hmm, List.length_append, List.length_singleton,
        smul_smul, smul_smul]
      simp only [Command.sem, hrn]
      congr 1
      rw [star_mul', pow_succ]
      have : star ((Real.sqrt 2 : ℝ) : ℂ) = ((Real.sqrt 2 : ℝ) : ℂ) := Complex.conj_ofReal _
      rw [this]
      ring

/-- The loop. -/
theorem loop_tn (henv : CzFactors env.cz1 env.cz2) {seq : List Command} (hrun : Runnable inputs seq) (hS : ∀ n d, Command.S n d ∉ seq)
    (hN : ∀ n s, Command.N n s ∈ seq → s = PlanarState.plus) (hE : ∀ u v, Command.E u v ∈ seq → u ≠ v)
    (hiso : ∀ n ∈ measuredIn seq, n ∉ iso) (hsel : ∀ res n, ∃ o, env.sel res n (1 / 2) = .ok o)
    (hsel' : ∀ res n, ∃ o, env.selAgain res n (1 / 2) = .ok o) :
    ∀ (post pre : List Command) (st : TnState), seq = pre ++ post → (par = true → ∀ c ∈ post, (∀ n s, c ≠ .N n s) ∧ ∀ u v, c ≠ .E u v) →
      TnInv env inputs ψ₀ iso outs par pre st → ∃ st', st.loop env post = .ok st' ∧ TnInv env inputs ψ₀ iso outs par seq st'
  | [], pre, st, hseq, _, inv => by
    rw [List.append_nil] at hseq
    subst hseq
    exact ⟨st, rfl, inv⟩
  | c :: post, pre, st, hseq, hpar, inv => by
    have hal : Allowed inputs pre c := hrun pre c post hseq
    have hmem : c ∈ seq := by rw [hseq]; simp
    have key : ∃ st', st.step env c = .ok st' ∧ TnInv env inputs ψ₀ iso outs par (pre ++ [c]) st' := by
      cases hc : c.measured? with
      | none =>
        refine step_tn henv inv (hseq ▸ hrun : Runnable inputs (pre ++ c :: post)).prefix.measured_sub hal hc (fun n d e => hS n d (e ▸ hmem)) (fun n s e => hN n s (e ▸ hmem)) (fun u v e => hE u v (e ▸ hmem))
          (fun h => hpar h c (by simp))
      | some k =>
        cases c with
        | M n m s t =>
          refine step_tn_measure inv hal (hiso n ?_) (hsel _ _) (hsel' _ _)
          rw [hseq, measuredIn_append]; simp [Command.measured?, measuredIn]
        | _ => simp [Command.measured?] at hc
    obtain ⟨st1, h1, inv1⟩ := key
    obtain ⟨st2, h2, inv2⟩ := loop_tn henv hrun hS hN hE hiso hsel hsel' post (pre ++ [c]) st1 (by rw [hseq]; simp)
      (fun h c hc => hpar h c (by simp [hc])) inv1
    exact ⟨st2, by unfold TnState.loop; rw [h1]; exact h2, inv2⟩

end

end Graphix
