import Verif.Proofs.Runnable
import Verif.Spec.Semantics
import Mathlib.Logic.Function.Iterate

/-! Helper lemmas on signal shifting. -/

namespace Graphix

open scoped symmDiff

theorem parity_insert {r : ℕ → Bool} {s : Finset ℕ} {n : ℕ} (h : n ∉ s) :
    parity r (insert n s) = Bool.xor (r n) (parity r s) := by
  have : insert n s = symmDiff {n} s := by
    ext x; simp only [Finset.mem_insert, Finset.mem_symmDiff, Finset.mem_singleton]
    constructor
    · rintro (rfl | hx)
      · exact Or.inl ⟨rfl, h⟩
      · exact Or.inr ⟨hx, fun h' => h (h' ▸ hx)⟩
    · rintro (⟨rfl, -⟩ | ⟨hx, -⟩)
      · exact Or.inl rfl
      · exact Or.inr hx
  rw [this, parity_symmDiff, parity_singleton]

/-- The branch of the original pattern that corresponds to branch `r'` of the shifted pattern: each
outcome is toggled iff the parity of its signal is odd (`pattern.py:2046-2075`). -/
def shiftBranch (sig : ℕ → Finset ℕ) (r' : ℕ → Bool) : ℕ → Bool :=
  fun n => Bool.xor (r' n) (parity r' (sig n))

theorem parity_fold_symmDiff (r : ℕ → Bool) (D S : Finset ℕ) (f : ℕ → Finset ℕ) :
    parity r (S.fold symmDiff D f) = Bool.xor (parity r (S.fold symmDiff ∅ f)) (parity r D) := by
  induction S using Finset.induction_on with
  | empty => simp [parity_empty]
  | insert a S ha ih =>
    rw [Finset.fold_insert ha, Finset.fold_insert ha, parity_symmDiff, parity_symmDiff, ih,
      Bool.xor_assoc]

theorem fold_filter_at (d : SignalDict) (D : Finset ℕ) :
    (D.filter (fun n => PyDict.contains d n)).fold symmDiff ∅ (fun n => SignalDict.at d n) =
    D.fold symmDiff ∅ (fun n => SignalDict.at d n) := by
  induction D using Finset.induction_on with
  | empty => simp
  | insert a S ha ih =>
    rw [Finset.filter_insert, Finset.fold_insert ha]
    split
    · rw [Finset.fold_insert (by simp [ha]), ih]
    · rename_i h
      have : SignalDict.at d a = ∅ := by
        unfold SignalDict.at
        simp only [PyDict.contains, Bool.not_eq_true, Option.isSome_eq_false_iff,
          Option.isNone_iff_eq_none] at h
        simp [h]
      rw [this, ih]; exact (bot_symmDiff _).symm

/-- The expanded domain has, in branch `r'`, the parity the original domain has in the shifted
branch. -/
theorem parity_expandDomain (sig : SignalDict) (r' : ℕ → Bool) (D : Finset ℕ) :
    parity r' (expandDomain sig D) = parity (shiftBranch (SignalDict.at sig) r') D := by
  unfold expandDomain
  rw [parity_fold_symmDiff, fold_filter_at]
  induction D using Finset.induction_on with
  | empty => simp [parity_empty]
  | insert a S ha ih =>
    rw [Finset.fold_insert ha, parity_insert ha, parity_insert ha, parity_symmDiff, ← ih]
    simp only [shiftBranch]
    cases r' a <;> cases parity r' (SignalDict.at sig a) <;> simp

theorem expandDomain_subset (sig : SignalDict) (D A : Finset ℕ) (hD : D ⊆ A)
    (hs : ∀ n, SignalDict.at sig n ⊆ A) : expandDomain sig D ⊆ A := by
  unfold expandDomain
  generalize D.filter (fun n => PyDict.contains sig n) = S
  induction S using Finset.induction_on with
  | empty => simpa using hD
  | insert a S ha ih =>
    rw [Finset.fold_insert ha]
    intro x hx
    rw [Finset.mem_symmDiff] at hx
    rcases hx with ⟨hx, -⟩ | ⟨hx, -⟩
    · exact hs a hx
    · exact ih hx

/-! ### Pauli algebra -/

theorem powB_false (U : Mat2) : powB U false = 1 := rfl
theorem powB_true (U : Mat2) : powB U true = U := rfl

theorem X_mul_X : Ops.X * Ops.X = 1 := by simp [Ops.X, mat2_mul, mat2_one]
theorem Z_mul_Z : Ops.Z * Ops.Z = 1 := by simp [Ops.Z, mat2_mul, mat2_one]
theorem X_mul_Z : Ops.X * Ops.Z = -(Ops.Z * Ops.X) := by simp [Ops.X, Ops.Z, mat2_mul, mat2_neg]

theorem matPhase_neg (U : Mat2) : MatPhaseEq (-U) U := ⟨-1, by simp, by simp⟩

theorem powX_powZ_comm (a c : Bool) :
    MatPhaseEq (powB Ops.X a * powB Ops.Z c) (powB Ops.Z c * powB Ops.X a) := by
  cases a <;> cases c <;> simp only [powB_false, powB_true, mul_one, one_mul] <;>
    first
    | exact MatPhaseEq.refl _
    | (rw [X_mul_Z]; exact matPhase_neg _)

theorem powB_mul_X (a c : Bool) : powB Ops.X a * powB Ops.X c = powB Ops.X (Bool.xor a c) := by
  cases a <;> cases c <;> simp [powB_false, powB_true, X_mul_X]

theorem powB_mul_Z (a c : Bool) : powB Ops.Z a * powB Ops.Z c = powB Ops.Z (Bool.xor a c) := by
  cases a <;> cases c <;> simp [powB_false, powB_true, Z_mul_Z]

theorem X_adj : Ops.X.conjTranspose * Ops.X = 1 := by
  simp [Ops.X, mat2_conjTranspose, mat2_mul, mat2_one]
theorem Y_adj : Ops.Y.conjTranspose * Ops.Y = 1 := by
  simp [Ops.Y, mat2_conjTranspose, mat2_mul, mat2_one]
theorem Z_adj : Ops.Z.conjTranspose * Ops.Z = 1 := by
  simp [Ops.Z, mat2_conjTranspose, mat2_mul, mat2_one]

theorem bra_shift_XY (m : Measurement) (h : m.toBloch.plane = .XY) (b s c : Bool) :
    MatPhaseEq (bra (measVec m (Bool.xor b c)) * (powB Ops.X s * powB Ops.Z c))
      (bra (measVec m b) * powB Ops.X s) := by
  refine ((MatPhaseEq.refl _).mul (powX_powZ_comm s c)).trans ?_
  rw [← Matrix.mul_assoc]
  refine MatPhaseEq.mul ?_ (MatPhaseEq.refl _)
  cases c
  · rw [powB_false, Matrix.mul_one, Bool.xor_false]; exact MatPhaseEq.refl _
  · rw [powB_true, Bool.xor_true]; exact bra_flip m b Z_adj (observable_flip_Z m h)

theorem bra_shift_YZ (m : Measurement) (h : m.toBloch.plane = .YZ) (b t c : Bool) :
    MatPhaseEq (bra (measVec m (Bool.xor b c)) * (powB Ops.X c * powB Ops.Z t))
      (bra (measVec m b) * powB Ops.Z t) := by
  rw [← Matrix.mul_assoc]
  refine MatPhaseEq.mul ?_ (MatPhaseEq.refl _)
  cases c
  · rw [powB_false, Matrix.mul_one, Bool.xor_false]; exact MatPhaseEq.refl _
  · rw [powB_true, Bool.xor_true]; exact bra_flip m b X_adj (observable_flip_X m h)

theorem bra_shift_XZ (m : Measurement) (h : m.toBloch.plane = .XZ) (b t c : Bool) :
    MatPhaseEq (bra (measVec m (Bool.xor b c)) * (powB Ops.X c * powB Ops.Z t))
      (bra (measVec m b) * powB Ops.Z (Bool.xor t c)) := by
  cases c
  · simp only [powB_false, Matrix.one_mul, Bool.xor_false]; exact MatPhaseEq.refl _
  · have hX : MatPhaseEq Ops.X (Ops.Y * Ops.Z) :=
      ⟨-Complex.I, by simp, by simp [Ops.X, Ops.Y, Ops.Z, mat2_mul, mat2_smul, mat2_neg]⟩
    simp only [powB_true, Bool.xor_true]
    refine ((MatPhaseEq.refl _).mul (hX.mul (MatPhaseEq.refl _))).trans ?_
    rw [Matrix.mul_assoc, ← Matrix.mul_assoc]
    have hz : Ops.Z * powB Ops.Z t = powB Ops.Z (!t) := by
      cases t <;> simp [powB_false, powB_true, Z_mul_Z]
    rw [hz]
    exact MatPhaseEq.mul (bra_flip m b Y_adj (observable_flip_Y m h)) (MatPhaseEq.refl _)

/-- Semantics of a measurement as one operator on its node. -/
theorem sem_M (r : ℕ → Bool) (n : ℕ) (m : Measurement) (s t : Finset ℕ) (ψ : QState) :
    (Command.M n m s t).sem r ψ =
      op1 (bra (measVec m (r n)) * (powB Ops.X (parity r s) * powB Ops.Z (parity r t))) n ψ := by
  simp only [Command.sem, projOut_eq_op1, op1_mul]

/-! ### The loop -/

/-- What the loop knows after the commands `pre` (whose measured nodes are the finite set `A`). -/
structure SigInv (A : Finset ℕ) (sig : SignalDict) : Prop where
  sub : ∀ n, SignalDict.at sig n ⊆ A
  out : ∀ n, n ∉ A → SignalDict.at sig n = ∅

theorem SignalDict.at_set (sig : SignalDict) (n : ℕ) (D : Finset ℕ) (k : ℕ) :
    SignalDict.at (PyDict.set sig n D) k = if n = k then D else SignalDict.at sig k := by
  unfold SignalDict.at
  rw [PyDict.get?_set]
  split <;> simp

theorem shiftBranch_congr {sig sig' : ℕ → Finset ℕ} (r' : ℕ → Bool) (D : Finset ℕ)
    (h : ∀ n ∈ D, sig n = sig' n) :
    parity (shiftBranch sig r') D = parity (shiftBranch sig' r') D :=
  parity_congr (fun n hn => by simp [shiftBranch, h n hn])

/-- The measurement commands of the shift step. -/
theorem shiftStep_fst_M (sig : SignalDict) (n : ℕ) (m : Measurement) (s t : Finset ℕ) :
    ∃ D, (∀ k, SignalDict.at (Pattern.shiftStep sig (.M n m s t)).1 k =
        if n = k ∧ D ≠ ∅ then D else SignalDict.at sig k) ∧
      D = (match m.toBloch.plane with
        | .XY => expandDomain sig t
        | _ => expandDomain sig s) := by
  refine ⟨_, ?_, rfl⟩
  intro k
  simp only [Pattern.shiftStep]
  cases m.toBloch.plane <;> simp only <;> split <;> rename_i h <;>
    simp [SignalDict.at_set, h]

theorem shiftStep_M_sem (sig sigf : SignalDict) (A : Finset ℕ) (hinv : SigInv A sig)
    (n : ℕ) (m : Measurement) (s t : Finset ℕ) (hs : s ⊆ A) (ht : t ⊆ A) (hn : n ∉ A)
    (hA : ∀ k ∈ A, SignalDict.at sigf k = SignalDict.at sig k)
    (hf : SignalDict.at sigf n = SignalDict.at (Pattern.shiftStep sig (.M n m s t)).1 n)
    (r' : ℕ → Bool) :
    OpPhaseEq ((Pattern.shiftStep sig (.M n m s t)).2.sem r')
      ((Command.M n m s t).sem (shiftBranch (SignalDict.at sigf) r')) := by
  have ps : parity r' (expandDomain sig s) = parity (shiftBranch (SignalDict.at sigf) r') s := by
    rw [parity_expandDomain]; exact shiftBranch_congr _ _ (fun k hk => (hA k (hs hk)).symm)
  have pt : parity r' (expandDomain sig t) = parity (shiftBranch (SignalDict.at sigf) r') t := by
    rw [parity_expandDomain]; exact shiftBranch_congr _ _ (fun k hk => (hA k (ht hk)).symm)
  obtain ⟨D, hD, hDe⟩ := shiftStep_fst_M sig n m s t
  have hfn : SignalDict.at sigf n = D := by
    rw [hf, hD n, hinv.out n hn]; by_cases h : D = ∅ <;> simp [h]
  have hr : shiftBranch (SignalDict.at sigf) r' n = Bool.xor (r' n) (parity r' D) := by
    simp [shiftBranch, hfn]
  have toOp : ∀ {F G : QState → QState} {U V : Mat2} (_ : ∀ ψ, F ψ = op1 U n ψ)
      (_ : ∀ ψ, G ψ = op1 V n ψ) (_ : MatPhaseEq V U), OpPhaseEq F G := by
    intro F G U V h1 h2 h3
    exact (OpPhaseEq.of_eq h1).trans ((h3.symm.opPhase n).trans (OpPhaseEq.of_eq h2).symm)
  have key : ∃ s' t', (Pattern.shiftStep sig (.M n m s t)).2 = .M n m s' t' ∧
      MatPhaseEq (bra (measVec m (shiftBranch (SignalDict.at sigf) r' n)) *
        (powB Ops.X (parity (shiftBranch (SignalDict.at sigf) r') s) *
          powB Ops.Z (parity (shiftBranch (SignalDict.at sigf) r') t)))
       (bra (measVec m (r' n)) * (powB Ops.X (parity r' s') * powB Ops.Z (parity r' t'))) := by
    rw [hr, ← ps, ← pt]
    cases hp : m.toBloch.plane <;> simp only [hp] at hDe
    · -- XY
      have hb := bra_shift_XY m hp (r' n) (parity r' (expandDomain sig s)) (parity r' (expandDomain sig t))
      by_cases h : expandDomain sig t = ∅
      · refine ⟨expandDomain sig s, expandDomain sig t, by simp [Pattern.shiftStep, hp, h], ?_⟩
        rw [hDe, h, parity_empty, Bool.xor_false]; exact MatPhaseEq.refl _
      · refine ⟨expandDomain sig s, ∅, by simp [Pattern.shiftStep, hp, h], ?_⟩
        rw [hDe, parity_empty, powB_false, Matrix.mul_one]; exact hb
    · -- YZ
      have hb := bra_shift_YZ m hp (r' n) (parity r' (expandDomain sig t)) (parity r' (expandDomain sig s))
      by_cases h : expandDomain sig s = ∅
      · refine ⟨expandDomain sig s, expandDomain sig t, by simp [Pattern.shiftStep, hp, h], ?_⟩
        rw [hDe, h, parity_empty, Bool.xor_false]; exact MatPhaseEq.refl _
      · refine ⟨∅, expandDomain sig t, by simp [Pattern.shiftStep, hp, h], ?_⟩
        rw [hDe, parity_empty, powB_false, Matrix.one_mul]; exact hb
    · -- XZ
      have hb := bra_shift_XZ m hp (r' n) (parity r' (expandDomain sig t)) (parity r' (expandDomain sig s))
      by_cases h : expandDomain sig s = ∅
      · refine ⟨expandDomain sig s, expandDomain sig t, by simp [Pattern.shiftStep, hp, h], ?_⟩
        rw [hDe, h, parity_empty, Bool.xor_false]; exact MatPhaseEq.refl _
      · refine ⟨∅, expandDomain sig t ∆ expandDomain sig s, by simp [Pattern.shiftStep, hp, h], ?_⟩
        rw [hDe, parity_empty, powB_false, Matrix.one_mul, parity_symmDiff]; exact hb
  obtain ⟨s', t', h1, h2⟩ := key
  rw [h1]
  exact toOp (fun ψ => sem_M r' n m s' t' ψ) (fun ψ => sem_M _ n m s t ψ) h2

theorem shiftStep_inv (sig : SignalDict) (A : Finset ℕ) (hinv : SigInv A sig) (c : Command)
    (hc : ∀ n m s t, c = .M n m s t → s ⊆ A ∧ t ⊆ A ∧ n ∉ A) :
    SigInv (A ∪ c.measured?.toFinset) (Pattern.shiftStep sig c).1 ∧
    ∀ k ∈ A, SignalDict.at (Pattern.shiftStep sig c).1 k = SignalDict.at sig k := by
  cases c with
  | M n m s t =>
    obtain ⟨hs, ht, hn⟩ := hc n m s t rfl
    obtain ⟨D, hD, hDe⟩ := shiftStep_fst_M sig n m s t
    have hDA : D ⊆ A := by
      have h1 := expandDomain_subset sig t A ht hinv.sub
      have h2 := expandDomain_subset sig s A hs hinv.sub
      rw [hDe]; cases m.toBloch.plane <;> assumption
    refine ⟨⟨fun k => ?_, fun k hk => ?_⟩, fun k hk => ?_⟩
    · rw [hD]; split
      · exact hDA.trans Finset.subset_union_left
      · exact (hinv.sub k).trans Finset.subset_union_left
    · simp only [Command.measured?, Option.toFinset_some, Finset.mem_union,
        Finset.mem_singleton, not_or] at hk
      rw [hD, if_neg (fun h => hk.2 h.1.symm)]; exact hinv.out k hk.1
    · rw [hD, if_neg]; rintro ⟨rfl, -⟩; exact hn hk
  | _ => simpa [Pattern.shiftStep, Command.measured?] using hinv

theorem shiftLoop_keep (l : List Command) : ∀ (sig : SignalDict) (A : Finset ℕ),
    SigInv A sig →
    (∀ p n m s t q, l = p ++ .M n m s t :: q →
      s ⊆ A ∪ (measuredIn p).toFinset ∧ t ⊆ A ∪ (measuredIn p).toFinset ∧
      n ∉ A ∪ (measuredIn p).toFinset) →
    ∀ k ∈ A, SignalDict.at (Pattern.shiftLoop sig l).1 k = SignalDict.at sig k := by
  induction l with
  | nil => intro sig A _ _ k _; rfl
  | cons c l ih =>
    intro sig A hinv hall k hk
    have h1 := shiftStep_inv sig A hinv c (fun n m s t hc => by
      have := hall [] n m s t l (by simp [hc])
      simpa [measuredIn] using this)
    have h2 := ih (Pattern.shiftStep sig c).1 (A ∪ c.measured?.toFinset) h1.1
      (fun p n m s t q hl => by
        have := hall (c :: p) n m s t q (by simp [hl])
        have e : A ∪ (measuredIn (c :: p)).toFinset =
            A ∪ c.measured?.toFinset ∪ (measuredIn p).toFinset := by
          cases hm : c.measured? <;> simp [measuredIn, hm]
        rwa [e] at this) k (Finset.mem_union_left _ hk)
    simp only [Pattern.shiftLoop]
    rw [h2, h1.2 k hk]

/-- Each command only uses nodes measured before it. -/
def DomainsOk (A : Finset ℕ) (l : List Command) : Prop :=
  ∀ p c q, l = p ++ c :: q → match c with
    | .M n _ s t => s ⊆ A ∪ (measuredIn p).toFinset ∧ t ⊆ A ∪ (measuredIn p).toFinset ∧
        n ∉ A ∪ (measuredIn p).toFinset
    | .X _ d => d ⊆ A ∪ (measuredIn p).toFinset
    | .Z _ d => d ⊆ A ∪ (measuredIn p).toFinset
    | _ => True

theorem DomainsOk.tail {A : Finset ℕ} {c : Command} {l : List Command} (h : DomainsOk A (c :: l)) :
    DomainsOk (A ∪ c.measured?.toFinset) l := by
  intro p c' q hl
  have := h (c :: p) c' q (by simp [hl])
  have e : A ∪ (measuredIn (c :: p)).toFinset =
      A ∪ c.measured?.toFinset ∪ (measuredIn p).toFinset := by
    cases hm : c.measured? <;> simp [measuredIn, hm]
  rw [e] at this
  exact this

/-- The condition of `DomainsOk` on the first command. -/
def HeadOk (A : Finset ℕ) : Command → Prop
  | .M n _ s t => s ⊆ A ∧ t ⊆ A ∧ n ∉ A
  | .X _ d => d ⊆ A
  | .Z _ d => d ⊆ A
  | _ => True

theorem DomainsOk.head {A : Finset ℕ} {c : Command} {l : List Command} (h : DomainsOk A (c :: l)) :
    HeadOk A c := by
  have := h [] c l rfl
  cases c <;> simp [measuredIn, HeadOk] at this ⊢ <;> exact this

theorem DomainsOk.of_runnable {inputs : List ℕ} {l : List Command} (h : Runnable inputs l) :
    DomainsOk ∅ l := by
  intro p c q hl
  have := h p c q hl
  cases c <;> simp only [Allowed, Live] at this <;> simp only [Finset.empty_union] <;> try trivial
  · refine ⟨fun k hk => ?_, fun k hk => ?_, ?_⟩
    · simpa using this.2.1 k hk
    · simpa using this.2.2 k hk
    · simpa using this.1.2
  · exact fun k hk => by simpa using this.2 k hk
  · exact fun k hk => by simpa using this.2 k hk

theorem shiftLoop_keep' {l : List Command} {sig : SignalDict} {A : Finset ℕ}
    (hinv : SigInv A sig) (h : DomainsOk A l) :
    ∀ k ∈ A, SignalDict.at (Pattern.shiftLoop sig l).1 k = SignalDict.at sig k :=
  shiftLoop_keep l sig A hinv (fun p n m s t q hl => h p (.M n m s t) q hl)

theorem shiftLoop_sem (l : List Command) : ∀ (sig : SignalDict) (A : Finset ℕ),
    SigInv A sig → DomainsOk A l → ∀ r' : ℕ → Bool,
    OpPhaseEq (semCmds r' (Pattern.shiftLoop sig l).2)
      (semCmds (shiftBranch (SignalDict.at (Pattern.shiftLoop sig l).1) r') l) := by
  induction l with
  | nil => intro sig A _ _ r'; exact OpPhaseEq.refl _
  | cons c l ih =>
    intro sig A hinv hok r'
    have hinv' := shiftStep_inv sig A hinv c (fun n m s t hc => by subst hc; exact hok.head)
    have h2 := ih _ _ hinv'.1 hok.tail r'
    have hkeep := shiftLoop_keep' hinv'.1 hok.tail
    have hkeepA : ∀ k ∈ A, SignalDict.at (Pattern.shiftLoop sig (c :: l)).1 k = SignalDict.at sig k :=
      shiftLoop_keep' hinv hok
    have step : OpPhaseEq ((Pattern.shiftStep sig c).2.sem r')
        (c.sem (shiftBranch (SignalDict.at (Pattern.shiftLoop sig (c :: l)).1) r')) := by
      cases c with
      | M n m s t =>
        obtain ⟨hs, ht, hn⟩ := hok.head
        refine shiftStep_M_sem sig _ A hinv n m s t hs ht hn hkeepA ?_ r'
        exact hkeep n (by simp [Command.measured?])
      | X n d =>
        have hd : d ⊆ A := hok.head
        apply OpPhaseEq.of_eq; intro ψ
        simp only [Pattern.shiftStep, Command.sem]
        rw [parity_expandDomain, shiftBranch_congr r' d (fun k hk => (hkeepA k (hd hk)).symm)]
      | Z n d =>
        have hd : d ⊆ A := hok.head
        apply OpPhaseEq.of_eq; intro ψ
        simp only [Pattern.shiftStep, Command.sem]
        rw [parity_expandDomain, shiftBranch_congr r' d (fun k hk => (hkeepA k (hd hk)).symm)]
      | _ => exact OpPhaseEq.refl _
    have h3 := OpPhaseEq.comp (semCmds_homog r' (Pattern.shiftLoop (Pattern.shiftStep sig c).1 l).2) h2 step
    exact h3

/-! ### Triangular signals -/

/-- Along the order of measurement, signals only refer to earlier nodes. -/
theorem shiftLoop_rank (l : List Command) : ∀ (sig : SignalDict) (A : Finset ℕ) (ρ : ℕ → ℕ) (N : ℕ),
    SigInv A sig → DomainsOk A l → (∀ n ∈ A, ρ n < N) →
    (∀ n, ∀ k ∈ SignalDict.at sig n, ρ k < ρ n) →
    ∃ ρ' : ℕ → ℕ, ∀ n, ∀ k ∈ SignalDict.at (Pattern.shiftLoop sig l).1 n, ρ' k < ρ' n := by
  induction l with
  | nil => intro sig A ρ N _ _ _ h; exact ⟨ρ, h⟩
  | cons c l ih =>
    intro sig A ρ N hinv hok hN hρ
    have hinv' := shiftStep_inv sig A hinv c (fun n m s t hc => by subst hc; exact hok.head)
    cases c with
    | M n m s t =>
      obtain ⟨hs, ht, hn⟩ := hok.head
      refine ih _ _ (Function.update ρ n N) (N + 1) hinv'.1 hok.tail ?_ ?_
      · intro k hk
        by_cases hkn : k = n
        · subst hkn; simp
        · rw [Function.update_of_ne hkn]
          simp only [Command.measured?, Option.toFinset_some, Finset.mem_union,
            Finset.mem_singleton] at hk
          have := hN k (hk.resolve_right hkn)
          omega
      · intro k j hj
        by_cases hkn : k = n
        · subst hkn
          have hjA : j ∈ A := by
            obtain ⟨D, hD, hDe⟩ := shiftStep_fst_M sig k m s t
            have hDA : D ⊆ A := by
              have h1 := expandDomain_subset sig t A ht hinv.sub
              have h2 := expandDomain_subset sig s A hs hinv.sub
              rw [hDe]; cases m.toBloch.plane <;> assumption
            rw [hD] at hj
            split at hj
            · exact hDA hj
            · exact hinv.sub k hj
          have hjn : j ≠ k := fun h => hn (h ▸ hjA)
          rw [Function.update_of_ne hjn, Function.update_self]; exact hN j hjA
        · obtain ⟨D, hD, hDe⟩ := shiftStep_fst_M sig n m s t
          rw [hD, if_neg (fun h => hkn h.1.symm)] at hj
          have hjA := hinv.sub k hj
          have hjn : j ≠ n := fun h => hn (h ▸ hjA)
          rw [Function.update_of_ne hjn, Function.update_of_ne hkn]; exact hρ k j hj
    | _ =>
      refine ih _ _ ρ N hinv'.1 hok.tail ?_ ?_
      · simpa [Command.measured?] using hN
      · simpa [Pattern.shiftStep] using hρ

theorem shiftBranch_bijective (sig : ℕ → Finset ℕ) (ρ : ℕ → ℕ)
    (h : ∀ n, ∀ k ∈ sig n, ρ k < ρ n) : Function.Bijective (shiftBranch sig) := by
  constructor
  · intro a b hab
    have : ∀ N n, ρ n < N → a n = b n := by
      intro N
      induction N with
      | zero => intro n hn; omega
      | succ N ih =>
        intro n hn
        have hp : parity a (sig n) = parity b (sig n) :=
          parity_congr (fun k hk => ih k (by have := h n k hk; omega))
        have := congrFun hab n
        simp only [shiftBranch, hp] at this
        simpa using this
    funext n; exact this _ n (Nat.lt_succ_self _)
  · intro r
    let F : (ℕ → Bool) → (ℕ → Bool) := fun x n => Bool.xor (r n) (parity x (sig n))
    -- iterates agree once the rank is reached
    have stable : ∀ N n, ρ n < N → ∀ K, N ≤ K → F^[K] (fun _ => false) n = F^[N] (fun _ => false) n := by
      intro N
      induction N with
      | zero => intro n hn; omega
      | succ N ih =>
        intro n hn K hK
        obtain ⟨K', rfl⟩ : ∃ K', K = K' + 1 := ⟨K - 1, by omega⟩
        rw [Function.iterate_succ_apply', Function.iterate_succ_apply']
        simp only [F]
        congr 1
        apply parity_congr
        intro k hk
        exact ih k (by have := h n k hk; omega) K' (by omega)
    refine ⟨fun n => F^[ρ n + 1] (fun _ => false) n, ?_⟩
    funext n
    have e : F^[ρ n + 1] (fun _ => false) n = Bool.xor (r n) (parity (F^[ρ n] (fun _ => false)) (sig n)) := by
      rw [Function.iterate_succ_apply']
    have e2 : parity (fun n => F^[ρ n + 1] (fun _ => false) n) (sig n) =
        parity (F^[ρ n] (fun _ => false)) (sig n) := by
      apply parity_congr
      intro k hk
      exact (stable (ρ k + 1) k (by omega) (ρ n) (by have := h n k hk; omega)).symm
    simp only [shiftBranch, e2, e]
    cases r n <;> cases parity (F^[ρ n] (fun _ => false)) (sig n) <;> rfl

end Graphix

namespace Graphix

theorem shiftLoop_inv (l : List Command) : ∀ (sig : SignalDict) (A : Finset ℕ),
    SigInv A sig → DomainsOk A l →
    SigInv (A ∪ (measuredIn l).toFinset) (Pattern.shiftLoop sig l).1 := by
  induction l with
  | nil => intro sig A h _; simpa [measuredIn, Pattern.shiftLoop] using h
  | cons c l ih =>
    intro sig A hinv hok
    have hinv' := shiftStep_inv sig A hinv c (fun n m s t hc => by subst hc; exact hok.head)
    have h2 := ih _ _ hinv'.1 hok.tail
    have e : A ∪ (measuredIn (c :: l)).toFinset =
        A ∪ c.measured?.toFinset ∪ (measuredIn l).toFinset := by
      cases hm : c.measured? <;> simp [measuredIn, hm]
    rw [e]; exact h2

theorem SigInv.empty : SigInv ∅ [] := ⟨by simp [SignalDict.at], by simp [SignalDict.at]⟩

/-- The semantics only looks at the outcomes of measured nodes. -/
theorem semCmds_congr (l : List Command) : ∀ (A : Finset ℕ) (r r' : ℕ → Bool),
    DomainsOk A l → (∀ n ∈ A ∪ (measuredIn l).toFinset, r n = r' n) →
    ∀ ψ, semCmds r l ψ = semCmds r' l ψ := by
  induction l with
  | nil => intros; rfl
  | cons c l ih =>
    intro A r r' hok h ψ
    have e : A ∪ (measuredIn (c :: l)).toFinset =
        A ∪ c.measured?.toFinset ∪ (measuredIn l).toFinset := by
      cases hm : c.measured? <;> simp [measuredIn, hm]
    have hA : ∀ n ∈ A, r n = r' n := fun n hn => h n (Finset.mem_union_left _ hn)
    have hp : ∀ d, d ⊆ A → parity r d = parity r' d :=
      fun d hd => parity_congr (fun n hn => hA n (hd hn))
    have hc : ∀ ψ, c.sem r ψ = c.sem r' ψ := by
      intro ψ
      have hh := hok.head
      cases c with
      | M n m s t =>
        obtain ⟨hs, ht, -⟩ := hh
        have : r n = r' n := h n (by rw [e]; simp [Command.measured?])
        simp only [Command.sem, hp s hs, hp t ht, this]
      | X n d => simp only [Command.sem, hp d hh]
      | Z n d => simp only [Command.sem, hp d hh]
      | _ => rfl
    rw [semCmds_cons, semCmds_cons, hc]
    exact ih _ r r' hok.tail (by rw [← e]; exact h) _

/-- The branch described by an outcome dictionary. -/
def branchOf (o : PyDict ℕ Bool) : ℕ → Bool := fun n => (PyDict.get? o n).getD false

theorem parity_branchOf (o : PyDict ℕ Bool) (s : Finset ℕ) :
    decide ((s.filter (fun i => PyDict.get? o i = some true)).card % 2 = 1) = parity (branchOf o) s := by
  unfold parity branchOf
  have : s.filter (fun i => PyDict.get? o i = some true) =
      s.filter (fun n => (PyDict.get? o n).getD false = true) := by
    apply Finset.filter_congr
    intro x _
    cases h : PyDict.get? o x <;> simp
  rw [this]; simp [Nat.odd_iff]

theorem shiftOutcomes_aux (sig : SignalDict) (o : PyDict ℕ Bool) (l : PyDict ℕ Bool)
    (h : ∀ kv ∈ l, ∀ i ∈ SignalDict.at sig kv.1, i ∈ PyDict.keys o) :
    ∃ out, l.mapM (fun kv => do
      let s := SignalDict.at sig kv.1
      if ∀ i ∈ s, PyDict.contains o i = true then
        let ones := (s.filter (fun i => PyDict.get? o i = some true)).card
        return (kv.1, if ones % 2 = 1 then !kv.2 else kv.2)
      else none) = some out ∧ PyDict.keys out = PyDict.keys l ∧
      ∀ n, PyDict.get? out n = (PyDict.get? l n).map
        (fun b => Bool.xor b (parity (branchOf o) (SignalDict.at sig n))) := by
  induction l with
  | nil => exact ⟨[], rfl, rfl, by simp⟩
  | cons kv l ih =>
    obtain ⟨out, h1, h2, h3⟩ := ih (fun kv hkv => h kv (List.mem_cons_of_mem _ hkv))
    have hc : ∀ i ∈ SignalDict.at sig kv.1, PyDict.contains o i = true :=
      fun i hi => (PyDict.contains_iff o i).2 (h kv (by simp) i hi)
    refine ⟨(kv.1, Bool.xor kv.2 (parity (branchOf o) (SignalDict.at sig kv.1))) :: out, ?_, ?_, ?_⟩
    · rw [List.mapM_cons]
      simp only [if_pos hc]
      rw [h1]
      have hp := parity_branchOf o (SignalDict.at sig kv.1)
      simp only [pure, bind, Option.bind_some, Option.some.injEq, List.cons.injEq, Prod.mk.injEq,
        true_and, and_true]
      rw [← hp]
      by_cases hh : ((SignalDict.at sig kv.1).filter (fun i => PyDict.get? o i = some true)).card % 2 = 1
      · simp [hh]
      · simp [hh]
    · simp only [PyDict.keys, List.map_cons] at h2 ⊢; rw [h2]
    · intro n
      obtain ⟨k, v⟩ := kv
      simp only [PyDict.get?_cons]
      split
      · rename_i hk; subst hk; simp
      · exact h3 n

theorem shiftOutcomes?_spec (sig : SignalDict) (o : PyDict ℕ Bool)
    (h : ∀ n, SignalDict.at sig n ⊆ (PyDict.keys o).toFinset) :
    ∃ out, shiftOutcomes? o sig = some out ∧ PyDict.keys out = PyDict.keys o ∧
      ∀ n ∈ PyDict.keys o, branchOf out n = shiftBranch (SignalDict.at sig) (branchOf o) n := by
  obtain ⟨out, h1, h2, h3⟩ := shiftOutcomes_aux sig o o
    (fun kv _ i hi => by simpa using h kv.1 hi)
  refine ⟨out, h1, h2, fun n hn => ?_⟩
  unfold branchOf shiftBranch
  rw [h3 n]
  obtain ⟨v, hv⟩ := Option.isSome_iff_exists.1 ((PyDict.get?_isSome_iff o n).2 hn)
  simp [hv]; rfl

/-- Shape of a shifted command. -/
def Shifted : Command → Prop
  | .M _ m s t => match m.toBloch.plane with
    | .XY => t = ∅
    | .YZ => s = ∅
    | .XZ => s = ∅
  | _ => True

theorem shiftLoop_shifted (l : List Command) : ∀ (sig : SignalDict),
    ∀ c ∈ (Pattern.shiftLoop sig l).2, Shifted c := by
  induction l with
  | nil => intro sig c hc; simp [Pattern.shiftLoop] at hc
  | cons c l ih =>
    intro sig c' hc'
    simp only [Pattern.shiftLoop, List.mem_cons] at hc'
    rcases hc' with rfl | hc'
    · cases c with
      | M n m s t =>
        simp only [Pattern.shiftStep]
        cases hp : m.toBloch.plane <;> simp only <;> split <;> simp_all [Shifted]
      | _ => simp [Pattern.shiftStep, Shifted]
    · exact ih _ c' hc'

/-- Shifting changes only the domains: same commands, same nodes, same measurements. -/
def SameUpToDomains : Command → Command → Prop
  | .M n m _ _, .M n' m' _ _ => n = n' ∧ m = m'
  | .X n _, .X n' _ => n = n'
  | .Z n _, .Z n' _ => n = n'
  | c, c' => c = c'

theorem shiftLoop_same (l : List Command) : ∀ (sig : SignalDict),
    List.Forall₂ SameUpToDomains l (Pattern.shiftLoop sig l).2 := by
  induction l with
  | nil => intro sig; exact List.Forall₂.nil
  | cons c l ih =>
    intro sig
    refine List.Forall₂.cons ?_ (ih _)
    cases c with
    | M n m s t =>
      simp only [Pattern.shiftStep]
      cases m.toBloch.plane <;> simp only <;> split <;> simp [SameUpToDomains]
    | _ => simp [Pattern.shiftStep, SameUpToDomains]

end Graphix
