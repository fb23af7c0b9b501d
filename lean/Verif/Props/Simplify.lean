import Verif.Model.Simplify
import Verif.Proofs.Rewrite

/-!
# Property C16: domain simplifications
-/

namespace Graphix

open scoped symmDiff

theorem bra_fix_X (b s : Bool) :
    MatPhaseEq (bra (measVec (.pauli ⟨.X, .plus⟩) b) * powB Ops.X s)
      (bra (measVec (.pauli ⟨.X, .plus⟩) b)) := by
  cases s
  · simpa [powB] using MatPhaseEq.refl _
  · simp only [powB, if_true]
    apply bra_conj
    rw [measureOperator_eq]
    simp only [observable]
    cases b <;> simp [Ops.X, Ops.fromAxis, Sign.toComplex, Sign.toInt, mat2_neg, mat2_conjTranspose, mat2_one, mat2_smul, mat2_add, mat2_mul]

theorem bra_fix_Z (b s : Bool) :
    MatPhaseEq (bra (measVec (.pauli ⟨.Z, .plus⟩) b) * powB Ops.Z s)
      (bra (measVec (.pauli ⟨.Z, .plus⟩) b)) := by
  cases s
  · simpa [powB] using MatPhaseEq.refl _
  · simp only [powB, if_true]
    apply bra_conj
    rw [measureOperator_eq]
    simp only [observable]
    cases b <;> simp [Ops.Z, Ops.fromAxis, Sign.toComplex, Sign.toInt, mat2_neg, mat2_conjTranspose, mat2_one, mat2_smul, mat2_add, mat2_mul]

theorem powB_XZ_comm (s t : Bool) :
    MatPhaseEq (powB Ops.X s * powB Ops.Z t) (powB Ops.Z t * powB Ops.X s) := by
  cases s <;> cases t
  · exact MatPhaseEq.refl _
  · simp [powB]; exact MatPhaseEq.refl _
  · simp [powB]; exact MatPhaseEq.refl _
  · refine ⟨-1, by simp, ?_⟩
    simp [powB, Ops.X, Ops.Z, mat2_mul, mat2_neg]

theorem uselessDomainsCmd_sem (r : ℕ → Bool) (c : Command) :
    OpPhaseEq ((uselessDomainsCmd c).sem r) (c.sem r) := by
  unfold uselessDomainsCmd
  split
  · rename_i n s t
    have h : MatPhaseEq (bra (measVec (.pauli ⟨.X, .plus⟩) (r n)) * (powB Ops.X (parity r ∅) * powB Ops.Z (parity r t)))
      (bra (measVec (.pauli ⟨.X, .plus⟩) (r n)) * (powB Ops.X (parity r s) * powB Ops.Z (parity r t))) := by
      rw [← Matrix.mul_assoc, ← Matrix.mul_assoc]
      exact ((bra_fix_X _ _).trans (bra_fix_X _ _).symm).mul (MatPhaseEq.refl _)
    obtain ⟨k, hk, hh⟩ := h.opPhase n
    exact ⟨k, hk, fun ψ => by simpa only [Command.sem, projOut_eq_op1, op1_mul] using hh ψ⟩
  · rename_i n s t
    have h : MatPhaseEq (bra (measVec (.pauli ⟨.Z, .plus⟩) (r n)) * (powB Ops.X (parity r s) * powB Ops.Z (parity r ∅)))
      (bra (measVec (.pauli ⟨.Z, .plus⟩) (r n)) * (powB Ops.X (parity r s) * powB Ops.Z (parity r t))) := by
      have key : ∀ u, MatPhaseEq (bra (measVec (.pauli ⟨.Z, .plus⟩) (r n)) * (powB Ops.X (parity r s) * powB Ops.Z u))
          (bra (measVec (.pauli ⟨.Z, .plus⟩) (r n)) * powB Ops.X (parity r s)) := by
        intro u
        refine ((MatPhaseEq.refl _).mul (powB_XZ_comm _ _)).trans ?_
        rw [← Matrix.mul_assoc]
        exact (bra_fix_Z _ _).mul (MatPhaseEq.refl _)
      exact (key _).trans (key _).symm
    obtain ⟨k, hk, hh⟩ := h.opPhase n
    exact ⟨k, hk, fun ψ => by simpa only [Command.sem, projOut_eq_op1, op1_mul] using hh ψ⟩
  · exact OpPhaseEq.refl _

theorem uselessDomainsCmd_expansion (c : Command) : Expansion c [uselessDomainsCmd c] := by
  unfold uselessDomainsCmd
  split
  all_goals first | exact Expansion.self _ | skip
  all_goals
    refine ⟨rfl, rfl, ?_⟩
    intro inputs pre h a x b e
    rcases a with _ | ⟨y, a⟩
    · simp only [List.nil_append, List.cons.injEq] at e
      obtain ⟨rfl, -⟩ := e
      rw [List.append_nil]
      first
        | exact ⟨h.1, by simp, h.2.2⟩
        | exact ⟨h.1, h.2.1, by simp⟩
    · simp at e

theorem live_congr {inputs : List ℕ} {l l' : List Command}
    (h1 : introduced inputs l' = introduced inputs l) (h2 : measuredIn l' = measuredIn l) (n : ℕ) :
    Live inputs l' n ↔ Live inputs l n := by
  unfold Live; rw [h1, h2]

/-- **C16** `remove_useless_domains` succeeds on every runnable pattern; the result is runnable, has the
same inputs and outputs and measures the same nodes in the same order; in every branch it implements
the same map up to a global phase (with the *same* outcomes); and Pauli measurements `X+` and `Z+` no
longer have the domain that does not matter. -/
theorem C16_remove_useless_domains (p : Pattern) (hp : p.OutputsOk) (hr : p.checkRunnability = .ok ()) :
    ∃ q, removeUselessDomains p = .ok q ∧ q.checkRunnability = .ok () ∧ q.OutputsOk ∧
      q.inputs = p.inputs ∧ q.outputs = p.outputs ∧ measuredIn q.seq = measuredIn p.seq ∧
      (∀ r, OpPhaseEq (semCmds r q.seq) (semCmds r p.seq)) ∧
      (∀ n s t, .M n (.pauli ⟨.X, .plus⟩) s t ∈ q.seq → s = ∅) ∧
      (∀ n s t, .M n (.pauli ⟨.Z, .plus⟩) s t ∈ q.seq → t = ∅) := by
  rw [checkRunnability_iff] at hr
  have hf : (p.seq.map (fun c => [uselessDomainsCmd c])).flatten = p.seq.map uselessDomainsCmd := by
    induction p.seq with
    | nil => rfl
    | cons c l ih => rw [List.map_cons, List.flatten_cons, ih]; rfl
  have hF : List.Forall₂ Expansion p.seq (p.seq.map (fun c => [uselessDomainsCmd c])) := by
    rw [List.forall₂_map_right_iff, List.forall₂_same]
    exact fun c _ => uselessDomainsCmd_expansion c
  obtain ⟨e1, e2, e3⟩ := expansion_runnable hF hr
  rw [hf] at e1 e2 e3
  obtain ⟨q, hq, q1, q2, q3, q4, q5⟩ := rebuild_ok hp.inputs_nodup e1 hp.outputs_nodup
    (fun n => (hp.outputs n).trans (live_congr e2 e3 n).symm)
  refine ⟨q, hq, q4, q5, q2, q3, by rw [q1, e3], ?_, ?_, ?_⟩
  · intro r
    rw [q1, ← hf]
    apply expansion_sem
    rw [List.forall₂_map_right_iff, List.forall₂_same]
    intro c _
    exact uselessDomainsCmd_sem r c
  all_goals
    intro n s t h
    rw [q1] at h
    obtain ⟨c, hc, e⟩ := List.mem_map.1 h
    unfold uselessDomainsCmd at e
    split at e
    · simp_all
    · simp_all
    · rename_i h1 h2; subst e
      first
        | exact absurd rfl (h1 n s t)
        | exact absurd rfl (h2 n s t)

/-! ### `single_qubit_domains` -/

/-- `orders` gives, for every command, iteration orders of its domains. -/
def IterationOrders (orders : ℕ → List ℕ × List ℕ) : ℕ → List Command → Prop
  | _, [] => True
  | i, c :: l =>
    (match c with
     | .M _ _ s t => (orders i).1.Nodup ∧ (orders i).1.toFinset = s ∧ (orders i).2.Nodup ∧
        (orders i).2.toFinset = t
     | .X _ d => (orders i).1.Nodup ∧ (orders i).1.toFinset = d
     | .Z _ d => (orders i).1.Nodup ∧ (orders i).1.toFinset = d
     | _ => True) ∧ IterationOrders orders (i + 1) l

/-- Every set of outcomes that controls a command has at most one element. -/
def SingleDomains : Command → Prop
  | .M _ _ s t => s.card ≤ 1 ∧ t.card ≤ 1
  | .X _ d => d.card ≤ 1
  | .Z _ d => d.card ≤ 1
  | _ => True

theorem parity_cons_list (r : ℕ → Bool) {a : ℕ} {l : List ℕ} (h : a ∉ l) :
    parity r (a :: l).toFinset = xor (parity r l.toFinset) (r a) := by
  have : (a :: l).toFinset = l.toFinset ∆ {a} := by
    ext x
    simp only [List.toFinset_cons, Finset.mem_insert, List.mem_toFinset, Finset.mem_symmDiff,
      Finset.mem_singleton]
    constructor
    · rintro (rfl | hx)
      · exact Or.inr ⟨rfl, h⟩
      · exact Or.inl ⟨hx, by rintro rfl; exact h hx⟩
    · tauto
  rw [this, parity_symmDiff, parity_singleton]

theorem semCmds_decomp_X (r : ℕ → Bool) (n : ℕ) (l : List ℕ) (hl : l.Nodup) (ψ : QState) :
    semCmds r (l.map (fun src => .X n {src})) ψ = op1 (powB Ops.X (parity r l.toFinset)) n ψ := by
  induction l generalizing ψ with
  | nil => simp [parity_empty, powB, op1_one]
  | cons a l ih =>
    simp only [List.nodup_cons] at hl
    rw [List.map_cons, semCmds_cons, ih hl.2, parity_cons_list r hl.1]
    simp only [Command.sem, op1_mul, parity_singleton, powB_mul_X]

theorem semCmds_decomp_Z (r : ℕ → Bool) (n : ℕ) (l : List ℕ) (hl : l.Nodup) (ψ : QState) :
    semCmds r (l.map (fun src => .Z n {src})) ψ = op1 (powB Ops.Z (parity r l.toFinset)) n ψ := by
  induction l generalizing ψ with
  | nil => simp [parity_empty, powB, op1_one]
  | cons a l ih =>
    simp only [List.nodup_cons] at hl
    rw [List.map_cons, semCmds_cons, ih hl.2, parity_cons_list r hl.1]
    simp only [Command.sem, op1_mul, parity_singleton, powB_mul_Z]

theorem powB_shuffle (s' t' t s : Bool) :
    MatPhaseEq (powB Ops.X s' * powB Ops.Z t' * (powB Ops.Z t * powB Ops.X s))
      (powB Ops.X (xor s' s) * powB Ops.Z (xor t' t)) := by
  have e1 : powB Ops.X s' * powB Ops.Z t' * (powB Ops.Z t * powB Ops.X s) =
      powB Ops.X s' * (powB Ops.Z (xor t' t) * powB Ops.X s) := by
    rw [Matrix.mul_assoc, ← Matrix.mul_assoc (powB Ops.Z t'), powB_mul_Z]
  have e2 : powB Ops.X (xor s' s) * powB Ops.Z (xor t' t) =
      powB Ops.X s' * (powB Ops.X s * powB Ops.Z (xor t' t)) := by
    rw [← powB_mul_X, Matrix.mul_assoc]
  rw [e1, e2]
  exact (MatPhaseEq.refl _).mul (powB_XZ_comm _ _).symm

/-- What the loop does for one command: an expansion with the same meaning and small domains. -/
theorem singleQubitDomainsCmd_spec (so tO : List ℕ) (c : Command)
    (h : match c with
     | .M _ _ s t => so.Nodup ∧ so.toFinset = s ∧ tO.Nodup ∧ tO.toFinset = t
     | .X _ d => so.Nodup ∧ so.toFinset = d
     | .Z _ d => so.Nodup ∧ so.toFinset = d
     | _ => True) :
    Expansion c (singleQubitDomainsCmd so tO c) ∧
    (∀ x ∈ singleQubitDomainsCmd so tO c, SingleDomains x) ∧
    ∀ r, OpPhaseEq (semCmds r (singleQubitDomainsCmd so tO c)) (c.sem r) := by
  have nilX : ∀ (n : ℕ) (l : List ℕ), ((l.map (fun src => Command.X n {src})).filterMap Command.prepared? = [] ∧
      (l.map (fun src => Command.X n {src})).filterMap Command.measured? = []) := by
    intro n l; induction l <;> simp_all [Command.prepared?, Command.measured?]
  have nilZ : ∀ (n : ℕ) (l : List ℕ), ((l.map (fun src => Command.Z n {src})).filterMap Command.prepared? = [] ∧
      (l.map (fun src => Command.Z n {src})).filterMap Command.measured? = []) := by
    intro n l; induction l <;> simp_all [Command.prepared?, Command.measured?]
  cases c with
  | N n st => exact ⟨Expansion.self _, by simp [singleQubitDomainsCmd, SingleDomains], fun r => OpPhaseEq.refl _⟩
  | E u v => exact ⟨Expansion.self _, by simp [singleQubitDomainsCmd, SingleDomains], fun r => OpPhaseEq.refl _⟩
  | C n g => exact ⟨Expansion.self _, by simp [singleQubitDomainsCmd, SingleDomains], fun r => OpPhaseEq.refl _⟩
  | S n g => exact ⟨Expansion.self _, by simp [singleQubitDomainsCmd, SingleDomains], fun r => OpPhaseEq.refl _⟩
  | T => exact ⟨Expansion.self _, by simp [singleQubitDomainsCmd, SingleDomains], fun r => OpPhaseEq.refl _⟩
  | X n d =>
    simp only at h
    unfold singleQubitDomainsCmd decomposeDomain
    by_cases hd : d.card ≤ 1
    · simp only [hd, if_true, Option.getD_none]
      exact ⟨Expansion.self _, by simp [SingleDomains, hd], fun r => OpPhaseEq.refl _⟩
    · simp only [hd, if_false, Option.getD_some]
      refine ⟨⟨by rw [(nilX n so).1]; rfl, by rw [(nilX n so).2]; rfl, ?_⟩, ?_, fun r => ?_⟩
      · intro inputs pre ha a x b e
        have hx : x ∈ so.map (fun src => Command.X n {src}) := by rw [e]; simp
        obtain ⟨s, hs, rfl⟩ := List.mem_map.1 hx
        have hpa := nilX n so
        rw [e, List.filterMap_append, List.filterMap_append] at hpa
        have p1 := (List.append_eq_nil_iff.1 hpa.1).1
        have p2 := (List.append_eq_nil_iff.1 hpa.2).1
        refine Allowed.congr (pre := pre) ?_ ?_ ⟨ha.1, ?_⟩
        · rw [introduced_append, p1, List.append_nil]
        · rw [measuredIn_append]; unfold measuredIn; rw [p2, List.append_nil]
        · intro k hk
          rw [Finset.mem_singleton.1 hk]
          exact ha.2 s (by rw [← h.2]; exact List.mem_toFinset.2 hs)
      · intro x hx
        obtain ⟨s, hs, rfl⟩ := List.mem_map.1 hx
        simp [SingleDomains]
      · exact OpPhaseEq.of_eq fun ψ => by rw [semCmds_decomp_X r n so h.1, h.2]; rfl
  | Z n d =>
    simp only at h
    unfold singleQubitDomainsCmd decomposeDomain
    by_cases hd : d.card ≤ 1
    · simp only [hd, if_true, Option.getD_none]
      exact ⟨Expansion.self _, by simp [SingleDomains, hd], fun r => OpPhaseEq.refl _⟩
    · simp only [hd, if_false, Option.getD_some]
      refine ⟨⟨by rw [(nilZ n so).1]; rfl, by rw [(nilZ n so).2]; rfl, ?_⟩, ?_, fun r => ?_⟩
      · intro inputs pre ha a x b e
        have hx : x ∈ so.map (fun src => Command.Z n {src}) := by rw [e]; simp
        obtain ⟨s, hs, rfl⟩ := List.mem_map.1 hx
        have hpa := nilZ n so
        rw [e, List.filterMap_append, List.filterMap_append] at hpa
        have p1 := (List.append_eq_nil_iff.1 hpa.1).1
        have p2 := (List.append_eq_nil_iff.1 hpa.2).1
        refine Allowed.congr (pre := pre) ?_ ?_ ⟨ha.1, ?_⟩
        · rw [introduced_append, p1, List.append_nil]
        · rw [measuredIn_append]; unfold measuredIn; rw [p2, List.append_nil]
        · intro k hk
          rw [Finset.mem_singleton.1 hk]
          exact ha.2 s (by rw [← h.2]; exact List.mem_toFinset.2 hs)
      · intro x hx
        obtain ⟨s, hs, rfl⟩ := List.mem_map.1 hx
        simp [SingleDomains]
      · exact OpPhaseEq.of_eq fun ψ => by rw [semCmds_decomp_Z r n so h.1, h.2]; rfl
  | M n m s t =>
    simp only at h
    obtain ⟨h1, h2, h3, h4⟩ := h
    -- the corrections, then the measurement with the remaining domains
    have main : ∀ (ls lt : List ℕ) (s' t' : Finset ℕ), ls ⊆ so → lt ⊆ tO → s' ⊆ s → t' ⊆ t →
        s'.card ≤ 1 → t'.card ≤ 1 →
        Expansion (.M n m s t) (ls.map (fun src => Command.X n {src}) ++
          lt.map (fun src => Command.Z n {src}) ++ [.M n m s' t']) ∧
        (∀ x ∈ ls.map (fun src => Command.X n {src}) ++
          lt.map (fun src => Command.Z n {src}) ++ [.M n m s' t'], SingleDomains x) := by
      intro ls lt s' t' hls hlt hs' ht' cs ct
      have hnil : (ls.map (fun src => Command.X n {src}) ++ lt.map (fun src => Command.Z n {src})).filterMap
          Command.prepared? = [] ∧ (ls.map (fun src => Command.X n {src}) ++
          lt.map (fun src => Command.Z n {src})).filterMap Command.measured? = [] := by
        rw [List.filterMap_append, List.filterMap_append, (nilX n ls).1, (nilX n ls).2, (nilZ n lt).1,
          (nilZ n lt).2]; exact ⟨rfl, rfl⟩
      refine ⟨⟨by rw [List.filterMap_append, hnil.1]; rfl, by rw [List.filterMap_append, hnil.2]; rfl, ?_⟩, ?_⟩
      · intro inputs pre ha a x b e
        -- the commands before `x` are corrections
        have hpre : a.filterMap Command.prepared? = [] ∧ a.filterMap Command.measured? = [] := by
          rcases List.eq_nil_or_concat b with rfl | ⟨b', y, rfl⟩
          · have : a = ls.map (fun src => Command.X n {src}) ++ lt.map (fun src => Command.Z n {src}) :=
              (List.append_inj' e.symm rfl).1
            rw [this]; exact hnil
          · have e' : ls.map (fun src => Command.X n {src}) ++ lt.map (fun src => Command.Z n {src}) =
                a ++ x :: b' := by
              have : a ++ x :: (b' ++ [y]) = (a ++ x :: b') ++ [y] := by simp
              rw [List.concat_eq_append, this] at e
              exact (List.append_inj' e rfl).1
            rw [e', List.filterMap_append, List.filterMap_append] at hnil
            exact ⟨(List.append_eq_nil_iff.1 hnil.1).1, (List.append_eq_nil_iff.1 hnil.2).1⟩
        have c1 : introduced inputs pre = introduced inputs (pre ++ a) := by
          rw [introduced_append, hpre.1, List.append_nil]
        have c2 : measuredIn pre = measuredIn (pre ++ a) := by
          rw [measuredIn_append]; unfold measuredIn; rw [hpre.2, List.append_nil]
        have hx : x ∈ ls.map (fun src => Command.X n {src}) ++
          lt.map (fun src => Command.Z n {src}) ++ [.M n m s' t'] := by rw [e]; simp
        refine Allowed.congr (pre := pre) c1 c2 ?_
        simp only [List.mem_append, List.mem_map, List.mem_singleton] at hx
        rcases hx with (⟨k, hk, rfl⟩ | ⟨k, hk, rfl⟩) | rfl
        · refine ⟨ha.1, fun j hj => ?_⟩
          rw [Finset.mem_singleton.1 hj]
          exact ha.2.1 k (by rw [← h2]; exact List.mem_toFinset.2 (hls hk))
        · refine ⟨ha.1, fun j hj => ?_⟩
          rw [Finset.mem_singleton.1 hj]
          exact ha.2.2 k (by rw [← h4]; exact List.mem_toFinset.2 (hlt hk))
        · exact ⟨ha.1, fun k hk => ha.2.1 k (hs' hk), fun k hk => ha.2.2 k (ht' hk)⟩
      · intro x hx
        simp only [List.mem_append, List.mem_map, List.mem_singleton] at hx
        rcases hx with (⟨k, hk, rfl⟩ | ⟨k, hk, rfl⟩) | rfl
        · simp [SingleDomains]
        · simp [SingleDomains]
        · exact ⟨cs, ct⟩
    -- meaning
    have msem : ∀ (ls lt : List ℕ) (s' t' : Finset ℕ) (r : ℕ → Bool), ls.Nodup → lt.Nodup →
        xor (parity r s') (parity r ls.toFinset) = parity r s →
        xor (parity r t') (parity r lt.toFinset) = parity r t →
        OpPhaseEq (semCmds r (ls.map (fun src => Command.X n {src}) ++
          lt.map (fun src => Command.Z n {src}) ++ [.M n m s' t'])) ((Command.M n m s t).sem r) := by
      intro ls lt s' t' r n1 n2 e1 e2
      have hm : MatPhaseEq (powB Ops.X (parity r s') * powB Ops.Z (parity r t') *
          (powB Ops.Z (parity r lt.toFinset) * powB Ops.X (parity r ls.toFinset)))
          (powB Ops.X (parity r s) * powB Ops.Z (parity r t)) := by
        rw [← e1, ← e2]; exact powB_shuffle _ _ _ _
      obtain ⟨k, hk, hh⟩ := ((MatPhaseEq.refl (bra (measVec m (r n)))).mul hm).opPhase n
      refine ⟨k, hk, fun ψ => ?_⟩
      rw [semCmds_append, semCmds_append, semCmds_decomp_X r n ls n1, semCmds_decomp_Z r n lt n2]
      have := hh ψ
      simp only [semCmds_cons, semCmds_nil, Command.sem, projOut_eq_op1, op1_mul]
      simpa only [Matrix.mul_assoc] using this
    unfold singleQubitDomainsCmd decomposeDomain
    by_cases hs : s.card ≤ 1 <;> by_cases ht : t.card ≤ 1
    · simp only [hs, ht, if_true, Option.isSome_none, Bool.false_eq_true, or_false, if_false]
      exact ⟨Expansion.self _, by simp [SingleDomains, hs, ht], fun r => OpPhaseEq.refl _⟩
    · simp only [hs, ht, if_true, Option.isSome_none, Bool.false_eq_true, false_or, if_false,
        Option.isSome_some, Option.getD_none, Option.getD_some]
      have := main [] tO s ∅ (by simp) (by simp) (fun _ h => h) (by simp) hs (by simp)
      refine ⟨this.1, this.2, fun r => msem [] tO s ∅ r (by simp) h3 ?_ ?_⟩
      · simp [parity_empty]
      · simp [parity_empty, h4]
    · simp only [hs, ht, if_true, Option.isSome_none, Bool.false_eq_true, or_false, if_false,
        Option.isSome_some, Option.getD_none, Option.getD_some]
      have := main so [] ∅ t (by simp) (by simp) (by simp) (fun _ h => h) (by simp) ht
      refine ⟨this.1, this.2, fun r => msem so [] ∅ t r h1 (by simp) ?_ ?_⟩
      · simp [parity_empty, h2]
      · simp [parity_empty]
    · simp only [hs, ht, if_true, or_self, if_false,
        Option.isSome_some, Option.getD_some]
      have := main so tO ∅ ∅ (by simp) (by simp) (by simp) (by simp) (by simp) (by simp)
      refine ⟨this.1, this.2, fun r => msem so tO ∅ ∅ r h1 h3 ?_ ?_⟩
      · simp [parity_empty, h2]
      · simp [parity_empty, h4]

/-- **C16** `single_qubit_domains` succeeds on every runnable pattern, whatever the order in which the
domains are iterated over; the result is runnable, has the same inputs, outputs and measurements in the
same order, implements the same map up to a global phase in every branch, and each of its domains has
at most one element. -/
theorem C16_single_qubit_domains (p : Pattern) (hp : p.OutputsOk) (hr : p.checkRunnability = .ok ())
    (orders : ℕ → List ℕ × List ℕ) (ho : IterationOrders orders 0 p.seq) :
    ∃ q, singleQubitDomains orders p = .ok q ∧ q.checkRunnability = .ok () ∧ q.OutputsOk ∧
      q.inputs = p.inputs ∧ q.outputs = p.outputs ∧ measuredIn q.seq = measuredIn p.seq ∧
      (∀ r, OpPhaseEq (semCmds r q.seq) (semCmds r p.seq)) ∧ ∀ c ∈ q.seq, SingleDomains c := by
  rw [checkRunnability_iff] at hr
  have key : ∀ (l : List Command) (i : ℕ), IterationOrders orders i l →
      ∃ ls : List (List Command), ls.flatten = singleQubitDomainsCmds orders i l ∧
        List.Forall₂ Expansion l ls ∧ (∀ c ∈ ls.flatten, SingleDomains c) ∧
        ∀ r, List.Forall₂ (fun c lc => OpPhaseEq (semCmds r lc) (c.sem r)) l ls := by
    intro l
    induction l with
    | nil => intro i _; exact ⟨[], rfl, .nil, by simp, fun _ => .nil⟩
    | cons c l ih =>
      intro i hi
      obtain ⟨ls, h1, h2, h3, h4⟩ := ih (i + 1) hi.2
      obtain ⟨s1, s2, s3⟩ := singleQubitDomainsCmd_spec (orders i).1 (orders i).2 c hi.1
      refine ⟨_ :: ls, by rw [List.flatten_cons, h1]; rfl, .cons s1 h2, ?_, fun r => .cons (s3 r) (h4 r)⟩
      intro x hx
      rw [List.flatten_cons] at hx
      rcases List.mem_append.1 hx with hx | hx
      · exact s2 x hx
      · exact h3 x hx
  obtain ⟨ls, h1, h2, h3, h4⟩ := key p.seq 0 ho
  obtain ⟨e1, e2, e3⟩ := expansion_runnable h2 hr
  obtain ⟨q, hq, q1, q2, q3, q4, q5⟩ := rebuild_ok hp.inputs_nodup e1 hp.outputs_nodup
    (fun n => (hp.outputs n).trans (live_congr e2 e3 n).symm)
  refine ⟨q, ?_, q4, q5, q2, q3, by rw [q1, e3], ?_, by rw [q1]; exact h3⟩
  · unfold singleQubitDomains; rw [← h1]; exact hq
  · intro r; rw [q1]; exact expansion_sem (h4 r)

/-- A pattern with useless and with large domains: it is runnable, and orders exist. -/
noncomputable def domainsExample : Pattern :=
  (Pattern.empty []).extend
    [.N 0 .plus, .N 1 .plus, .N 2 .plus, .N 3 .plus, .M 0 (.bloch ⟨1/4, .XY⟩) ∅ ∅,
     .M 1 (.bloch ⟨1/8, .XY⟩) {0} ∅, .M 2 (.pauli ⟨.X, .plus⟩) {0, 1} {0, 1}, .X 3 {0, 1, 2}]

example : domainsExample.checkRunnability = .ok () ∧
    (∃ orders, IterationOrders orders 0 domainsExample.seq) ∧
    uselessDomainsCmd (.M 2 (.pauli ⟨.X, .plus⟩) {0, 1} {0, 1}) = .M 2 (.pauli ⟨.X, .plus⟩) ∅ {0, 1} ∧
    singleQubitDomainsCmd [2, 0, 1] [] (.X 3 {0, 1, 2}) = [.X 3 {2}, .X 3 {0}, .X 3 {1}] := by
  refine ⟨rfl, ⟨fun i => if i = 5 then ([0], []) else if i = 6 then ([1, 0], [0, 1]) else
    if i = 7 then ([2, 0, 1], []) else ([], []), ?_⟩, rfl, rfl⟩
  change IterationOrders _ 0 [.N 0 .plus, .N 1 .plus, .N 2 .plus, .N 3 .plus, .M 0 (.bloch ⟨1/4, .XY⟩) ∅ ∅,
     .M 1 (.bloch ⟨1/8, .XY⟩) {0} ∅, .M 2 (.pauli ⟨.X, .plus⟩) {0, 1} {0, 1}, .X 3 {0, 1, 2}]
  simp only [IterationOrders]
  refine ⟨trivial, trivial, trivial, trivial, ?_, ?_, ?_, ?_, trivial⟩ <;> decide

end Graphix
