import Verif.Model.Standardize
import Verif.Proofs.Signals
import Verif.Props.Clifford

/-! Helper lemmas on standardization. -/

namespace Graphix

open scoped symmDiff

/-! ### Operators indexed by a dictionary -/

/-- Apply `g v` on node `k` for each entry `k ↦ v`, in order. -/
noncomputable def dictOp {β : Type} (g : β → Mat2) (d : PyDict ℕ β) (ψ : QState) : QState :=
  d.foldl (fun ψ kv => op1 (g kv.2) kv.1 ψ) ψ

section dictOp
variable {β : Type} (g : β → Mat2)

@[simp] theorem dictOp_nil (ψ : QState) : dictOp g ([] : PyDict ℕ β) ψ = ψ := rfl
@[simp] theorem dictOp_cons (kv : ℕ × β) (d : PyDict ℕ β) (ψ : QState) :
    dictOp g (kv :: d) ψ = dictOp g d (op1 (g kv.2) kv.1 ψ) := rfl

theorem dictOp_homog (d : PyDict ℕ β) : Homog (dictOp g d) := by
  induction d with
  | nil => intro c ψ; rfl
  | cons kv d ih => intro c ψ; simp only [dictOp_cons, op1_smul]; exact ih c _

theorem dictOp_op1 (U : Mat2) (n : ℕ) (d : PyDict ℕ β) (h : n ∉ PyDict.keys d) (ψ : QState) :
    op1 U n (dictOp g d ψ) = dictOp g d (op1 U n ψ) := by
  induction d generalizing ψ with
  | nil => rfl
  | cons kv d ih =>
    simp only [PyDict.keys, List.map_cons, List.mem_cons, not_or] at h
    rw [dictOp_cons, dictOp_cons, ih h.2, op1_comm _ _ h.1]

theorem dictOp_cz (u v : ℕ) (d : PyDict ℕ β) (hu : u ∉ PyDict.keys d) (hv : v ∉ PyDict.keys d)
    (ψ : QState) : cz u v (dictOp g d ψ) = dictOp g d (cz u v ψ) := by
  induction d generalizing ψ with
  | nil => rfl
  | cons kv d ih =>
    simp only [PyDict.keys, List.map_cons, List.mem_cons, not_or] at hu hv
    rw [dictOp_cons, dictOp_cons, ih hu.2 hv.2, cz_op1_of_ne _ hu.1 hv.1]

theorem dictOp_prep (n : ℕ) (w : Bool → ℂ) (d : PyDict ℕ β) (hn : n ∉ PyDict.keys d)
    (ψ : QState) : prep n w (dictOp g d ψ) = dictOp g d (prep n w ψ) := by
  induction d generalizing ψ with
  | nil => rfl
  | cons kv d ih =>
    simp only [PyDict.keys, List.map_cons, List.mem_cons, not_or] at hn
    rw [dictOp_cons, dictOp_cons, ih hn.2, prep_op1_of_ne _ hn.1]

/-- The operator a dictionary applies on node `k`. -/
def dictVal (d : PyDict ℕ β) (k : ℕ) : Mat2 :=
  match PyDict.get? d k with
  | none => 1
  | some v => g v

theorem dictOp_split (d : PyDict ℕ β) (hd : (PyDict.keys d).Nodup) (k : ℕ) (ψ : QState) :
    dictOp g d ψ = dictOp g (PyDict.erase d k) (op1 (dictVal g d k) k ψ) := by
  induction d generalizing ψ with
  | nil => simp [dictVal, PyDict.erase, op1_one]
  | cons kv d ih =>
    obtain ⟨a, v⟩ := kv
    simp only [PyDict.keys, List.map_cons, List.nodup_cons] at hd
    by_cases h : a = k
    · subst h
      simp [PyDict.erase, dictVal, PyDict.get?]
    · have e : dictVal g ((a, v) :: d) k = dictVal g d k := by simp [dictVal, PyDict.get?, h]
      rw [dictOp_cons, ih hd.2, e]
      simp only [PyDict.erase, h, if_false, dictOp_cons]
      rw [op1_comm _ _ (Ne.symm h)]

theorem erase_set (d : PyDict ℕ β) (k : ℕ) (v : β) :
    PyDict.erase (PyDict.set d k v) k = PyDict.erase d k := by
  induction d with
  | nil => simp [PyDict.set, PyDict.erase]
  | cons kv d ih =>
    obtain ⟨a, w⟩ := kv
    by_cases h : a = k
    · simp [PyDict.set, PyDict.erase, h]
    · simp [PyDict.set, PyDict.erase, h, ih]

theorem keys_erase_nodup {d : PyDict ℕ β} (hd : (PyDict.keys d).Nodup) (k : ℕ) :
    (PyDict.keys (PyDict.erase d k)).Nodup := by
  rw [PyDict.keys_erase]; exact hd.erase k

theorem not_mem_keys_erase {d : PyDict ℕ β} (hd : (PyDict.keys d).Nodup) (k : ℕ) :
    k ∉ PyDict.keys (PyDict.erase d k) := by
  rw [PyDict.keys_erase]; exact hd.not_mem_erase

theorem not_mem_keys_erase_of {d : PyDict ℕ β} {n : ℕ} (h : n ∉ PyDict.keys d) (k : ℕ) :
    n ∉ PyDict.keys (PyDict.erase d k) := by
  rw [PyDict.keys_erase]; exact fun hh => h (List.mem_of_mem_erase hh)

theorem dictVal_erase {d : PyDict ℕ β} (hd : (PyDict.keys d).Nodup) {k n : ℕ} (h : k ≠ n) :
    dictVal g (PyDict.erase d k) n = dictVal g d n := by
  unfold dictVal; rw [PyDict.get?_erase hd, if_neg h]

end dictOp

/-! ### The three correction dictionaries -/

/-- `powB X` of a domain -/
noncomputable def gX (r : ℕ → Bool) (d : Finset ℕ) : Mat2 := powB Ops.X (parity r d)
/-- `powB Z` of a domain -/
noncomputable def gZ (r : ℕ → Bool) (d : Finset ℕ) : Mat2 := powB Ops.Z (parity r d)

/-- The effect of the final corrections: `Z`, then `X`, then Clifford. -/
noncomputable def corrOp (r : ℕ → Bool) (c : PyDict ℕ Clifford) (x z : PyDict ℕ (Finset ℕ))
    (ψ : QState) : QState :=
  dictOp Clifford.matrix c (dictOp (gX r) x (dictOp (gZ r) z ψ))

theorem corrOp_homog (r : ℕ → Bool) (c x z) : Homog (corrOp r c x z) := fun k ψ => by
  unfold corrOp
  rw [dictOp_homog, dictOp_homog, dictOp_homog]

/-- The whole local operator on node `k`. -/
noncomputable def locOp (r : ℕ → Bool) (c : PyDict ℕ Clifford) (x z : PyDict ℕ (Finset ℕ)) (k : ℕ) :
    Mat2 :=
  dictVal Clifford.matrix c k * (dictVal (gX r) x k * dictVal (gZ r) z k)

theorem corrOp_split (r : ℕ → Bool) {c : PyDict ℕ Clifford} {x z : PyDict ℕ (Finset ℕ)}
    (hc : (PyDict.keys c).Nodup) (hx : (PyDict.keys x).Nodup) (hz : (PyDict.keys z).Nodup)
    (k : ℕ) (ψ : QState) :
    corrOp r c x z ψ =
      corrOp r (PyDict.erase c k) (PyDict.erase x k) (PyDict.erase z k) (op1 (locOp r c x z k) k ψ) := by
  unfold corrOp locOp
  rw [dictOp_split _ c hc k, dictOp_split _ x hx k, dictOp_split _ z hz k]
  congr 1
  rw [dictOp_op1 _ _ _ _ (not_mem_keys_erase hx k)]
  congr 1
  rw [dictOp_op1 _ _ _ _ (not_mem_keys_erase hz k), dictOp_op1 _ _ _ _ (not_mem_keys_erase hz k)]
  congr 1
  rw [op1_mul, op1_mul, Matrix.mul_assoc]

theorem corrOp_op1 (r : ℕ → Bool) (U : Mat2) {n : ℕ} {c : PyDict ℕ Clifford}
    {x z : PyDict ℕ (Finset ℕ)}
    (hc : n ∉ PyDict.keys c) (hx : n ∉ PyDict.keys x) (hz : n ∉ PyDict.keys z) (ψ : QState) :
    op1 U n (corrOp r c x z ψ) = corrOp r c x z (op1 U n ψ) := by
  unfold corrOp
  rw [dictOp_op1 _ _ _ _ hc, dictOp_op1 _ _ _ _ hx, dictOp_op1 _ _ _ _ hz]

theorem corrOp_cz (r : ℕ → Bool) {u v : ℕ} {c : PyDict ℕ Clifford} {x z : PyDict ℕ (Finset ℕ)}
    (hcu : u ∉ PyDict.keys c) (hxu : u ∉ PyDict.keys x) (hzu : u ∉ PyDict.keys z)
    (hcv : v ∉ PyDict.keys c) (hxv : v ∉ PyDict.keys x) (hzv : v ∉ PyDict.keys z) (ψ : QState) :
    cz u v (corrOp r c x z ψ) = corrOp r c x z (cz u v ψ) := by
  unfold corrOp
  rw [dictOp_cz _ _ _ _ hcu hcv, dictOp_cz _ _ _ _ hxu hxv, dictOp_cz _ _ _ _ hzu hzv]

theorem corrOp_prep (r : ℕ → Bool) {n : ℕ} (w : Bool → ℂ) {c : PyDict ℕ Clifford}
    {x z : PyDict ℕ (Finset ℕ)}
    (hc : n ∉ PyDict.keys c) (hx : n ∉ PyDict.keys x) (hz : n ∉ PyDict.keys z) (ψ : QState) :
    prep n w (corrOp r c x z ψ) = corrOp r c x z (prep n w ψ) := by
  unfold corrOp
  rw [dictOp_prep _ _ _ _ hc, dictOp_prep _ _ _ _ hx, dictOp_prep _ _ _ _ hz]

/-! ### Domains in dictionaries -/

/-- The domain bound to a node, or the empty set. -/
def domAt (d : PyDict ℕ (Finset ℕ)) (k : ℕ) : Finset ℕ := (PyDict.get? d k).getD ∅

theorem dictVal_gX (r : ℕ → Bool) (d : PyDict ℕ (Finset ℕ)) (k : ℕ) :
    dictVal (gX r) d k = powB Ops.X (parity r (domAt d k)) := by
  unfold dictVal domAt gX
  cases PyDict.get? d k <;> simp [parity_empty, powB_false]

theorem dictVal_gZ (r : ℕ → Bool) (d : PyDict ℕ (Finset ℕ)) (k : ℕ) :
    dictVal (gZ r) d k = powB Ops.Z (parity r (domAt d k)) := by
  unfold dictVal domAt gZ
  cases PyDict.get? d k <;> simp [parity_empty, powB_false]

theorem domAt_erase {d : PyDict ℕ (Finset ℕ)} (hd : (PyDict.keys d).Nodup) {k n : ℕ} (h : k ≠ n) :
    domAt (PyDict.erase d k) n = domAt d n := by
  unfold domAt; rw [PyDict.get?_erase hd, if_neg h]

theorem domAt_add (d : PyDict ℕ (Finset ℕ)) (k : ℕ) (D : Finset ℕ) (n : ℕ) :
    domAt (addCorrectionDomain d k D) n = if k = n then domAt d k ∆ D else domAt d n := by
  unfold addCorrectionDomain domAt
  cases h : PyDict.get? d k with
  | none =>
    simp only
    rw [PyDict.get?_set]; split
    · simp; exact (bot_symmDiff D).symm
    · rfl
  | some p =>
    simp only
    split
    · rw [PyDict.get?_set]; split <;> simp
    · rename_i hp
      simp only [ne_eq, Decidable.not_not] at hp
      rw [PyDict.get?_set]; split
      · simp [hp]; exact (bot_symmDiff D).symm
      · rfl

theorem erase_add (d : PyDict ℕ (Finset ℕ)) (k : ℕ) (D : Finset ℕ) :
    PyDict.erase (addCorrectionDomain d k D) k = PyDict.erase d k := by
  unfold addCorrectionDomain
  cases PyDict.get? d k with
  | none => exact erase_set d k D
  | some p => simp only; split <;> exact erase_set d k _

theorem keys_add (d : PyDict ℕ (Finset ℕ)) (k : ℕ) (D : Finset ℕ) (n : ℕ) :
    n ∈ PyDict.keys (addCorrectionDomain d k D) ↔ n = k ∨ n ∈ PyDict.keys d := by
  unfold addCorrectionDomain
  cases PyDict.get? d k with
  | none => exact PyDict.mem_keys_set d k D n
  | some p => simp only; split <;> exact PyDict.mem_keys_set d k _ n

theorem nodup_add {d : PyDict ℕ (Finset ℕ)} (hd : (PyDict.keys d).Nodup) (k : ℕ) (D : Finset ℕ) :
    (PyDict.keys (addCorrectionDomain d k D)).Nodup := by
  unfold addCorrectionDomain
  cases PyDict.get? d k with
  | none => exact PyDict.keys_set_nodup hd k D
  | some p => simp only; split <;> exact PyDict.keys_set_nodup hd k _

/-- `_add_correction_domain` guarded by "if the domain is nonempty". -/
def addIf (d : PyDict ℕ (Finset ℕ)) (k : ℕ) (D : Finset ℕ) : PyDict ℕ (Finset ℕ) :=
  if D ≠ ∅ then addCorrectionDomain d k D else d

theorem domAt_addIf (d : PyDict ℕ (Finset ℕ)) (k : ℕ) (D : Finset ℕ) (n : ℕ) :
    domAt (addIf d k D) n = if k = n then domAt d k ∆ D else domAt d n := by
  unfold addIf
  split
  · exact domAt_add d k D n
  · rename_i h; simp only [ne_eq, Decidable.not_not] at h
    split
    · rename_i h2; subst h2; rw [h]; exact (symmDiff_bot _).symm
    · rfl

theorem erase_addIf (d : PyDict ℕ (Finset ℕ)) (k : ℕ) (D : Finset ℕ) :
    PyDict.erase (addIf d k D) k = PyDict.erase d k := by
  unfold addIf; split
  · exact erase_add d k D
  · rfl

theorem keys_addIf {d : PyDict ℕ (Finset ℕ)} {k : ℕ} {D : Finset ℕ} {n : ℕ}
    (h : n ∈ PyDict.keys (addIf d k D)) : n = k ∨ n ∈ PyDict.keys d := by
  unfold addIf at h; split at h
  · exact (keys_add d k D n).1 h
  · exact Or.inr h

theorem nodup_addIf {d : PyDict ℕ (Finset ℕ)} (hd : (PyDict.keys d).Nodup) (k : ℕ) (D : Finset ℕ) :
    (PyDict.keys (addIf d k D)).Nodup := by
  unfold addIf; split
  · exact nodup_add hd k D
  · exact hd

/-! ### Diagonal and anti-diagonal Cliffords against CZ -/

/-- Cliffords that commute with CZ up to a `Z` on the other node. -/
def isAnti (c : Clifford) : Bool :=
  decide (c = Clifford.X ∨ c = Clifford.Y ∨ c = Clifford.ofFin 9 ∨ c = Clifford.ofFin 10)

/-- Cliffords that commute with CZ. -/
def isDiag (c : Clifford) : Bool :=
  decide (c = Clifford.I ∨ c = Clifford.Z ∨ c = Clifford.S ∨ c = Clifford.SDG)

/-- `Mono a A`: `A` is diagonal if `a = false`, anti-diagonal if `a = true`. -/
def Mono (a : Bool) (A : Mat2) : Prop :=
  if a then A false false = 0 ∧ A true true = 0 else A false true = 0 ∧ A true false = 0

theorem Mono.mul {a b : Bool} {A B : Mat2} (hA : Mono a A) (hB : Mono b B) :
    Mono (Bool.xor a b) (A * B) := by
  cases a <;> cases b <;> simp only [Mono] at * <;> simp [mul2_apply, hA.1, hA.2, hB.1, hB.2]

theorem Mono.one : Mono false 1 := by simp [Mono, mat2_one]
theorem Mono.X : Mono true Ops.X := by simp [Mono, Ops.X]
theorem Mono.Z : Mono false Ops.Z := by simp [Mono, Ops.Z]
theorem Mono.powX (a : Bool) : Mono a (powB Ops.X a) := by
  cases a
  · exact Mono.one
  · exact Mono.X
theorem Mono.powZ (a : Bool) : Mono false (powB Ops.Z a) := by
  cases a
  · exact Mono.one
  · exact Mono.Z

theorem Mono.cz {a : Bool} {A : Mat2} (h : Mono a A) {u v : ℕ} (huv : u ≠ v) (φ : QState) :
    cz u v (op1 A u φ) = op1 A u (op1 (powB Ops.Z a) v (Graphix.cz u v φ)) := by
  funext b
  cases a <;> simp only [Mono] at h
  · simp only [powB_false, op1_one]
    cases hu : b u <;> simp [Graphix.cz, op1, hu, h.1, h.2, huv.symm] <;> ring
  · have hz : ∀ χ : QState, op1 Ops.Z v χ = fun b => (if b v then (-1 : ℂ) else 1) * χ b := by
      intro χ; funext b
      rw [op1_diag (by simp [Mat2.Diag, Ops.Z])]
      cases b v <;> simp [Ops.Z]
    simp only [powB_true, hz, if_true] at h ⊢
    cases hu : b u <;> cases hv : b v <;>
      simp [Graphix.cz, op1, hu, hv, h.1, h.2, huv.symm]

theorem Mono.smul {a : Bool} {A : Mat2} (h : Mono a A) (c : ℂ) : Mono a (c • A) := by
  cases a <;> simp only [Mono] at * <;> simp [h.1, h.2]

theorem Mono.of_phase {a : Bool} {A B : Mat2} (h : Mono a A) (hp : MatPhaseEq B A) : Mono a B := by
  obtain ⟨c, -, rfl⟩ := hp; exact h.smul c

theorem Mono.comm_Z {a : Bool} {A : Mat2} (h : Mono a A) (c : Bool) :
    MatPhaseEq (powB Ops.Z c * A) (A * powB Ops.Z c) := by
  cases c
  · simp only [powB_false, Matrix.one_mul, Matrix.mul_one]; exact MatPhaseEq.refl _
  · cases a <;> simp only [Mono] at h
    · refine MatPhaseEq.of_eq ?_
      apply mat2_ext <;> simp [mul2_apply, powB, Ops.Z, h.1, h.2]
    · refine ⟨-1, by simp, ?_⟩
      apply mat2_ext <;> simp [mul2_apply, powB, Ops.Z, h.1, h.2]

theorem mono_check : ∀ c : Fin 24,
    (isDiag (Clifford.ofFin c) = true →
      (Clifford.ofFin c).cmat.b = ⟨0, 0⟩ ∧ (Clifford.ofFin c).cmat.c = ⟨0, 0⟩) ∧
    (isAnti (Clifford.ofFin c) = true →
      (Clifford.ofFin c).cmat.a = ⟨0, 0⟩ ∧ (Clifford.ofFin c).cmat.d = ⟨0, 0⟩) := by
  decide +kernel

theorem mono_of_isDiag {c : Clifford} (h : isDiag c = true) : Mono false c.matrix := by
  have := (mono_check c).1 h
  change c.cmat.b = _ ∧ c.cmat.c = _ at this
  simp [Mono, Clifford.matrix, CMat.toMat, this.1, this.2, GI.toC]

theorem mono_of_isAnti {c : Clifford} (h : isAnti c = true) : Mono true c.matrix := by
  have := (mono_check c).2 h
  change c.cmat.a = _ ∧ c.cmat.d = _ at this
  simp [Mono, Clifford.matrix, CMat.toMat, this.1, this.2, GI.toC]

theorem commuteClifford_ok {gate : Clifford} {c c' : PyDict ℕ Clifford} {j : ℕ}
    (h : commuteClifford gate c j = .ok c') :
    (isDiag gate = true ∧ c' = c) ∨
    (isAnti gate = true ∧ c' = PyDict.set c j (Clifford.Z.mul ((PyDict.get? c j).getD Clifford.I))) := by
  unfold commuteClifford at h
  split at h
  · rename_i hd; left; cases h; exact ⟨by simpa [isDiag] using hd, rfl⟩
  · split at h
    · rename_i ha; right; cases h; exact ⟨by simpa [isAnti] using ha, rfl⟩
    · cases h

/-- The Clifford matrix on a node. -/
noncomputable def cAt (c : PyDict ℕ Clifford) (k : ℕ) : Mat2 :=
  ((PyDict.get? c k).getD Clifford.I).matrix

theorem dictVal_cAt (c : PyDict ℕ Clifford) (k : ℕ) : dictVal Clifford.matrix c k = cAt c k := by
  unfold dictVal cAt
  cases PyDict.get? c k
  · exact Clifford.matrix_I.symm
  · rfl

theorem locOp_eq (r : ℕ → Bool) (c : PyDict ℕ Clifford) (x z : PyDict ℕ (Finset ℕ)) (k : ℕ) :
    locOp r c x z k =
      cAt c k * (powB Ops.X (parity r (domAt x k)) * powB Ops.Z (parity r (domAt z k))) := by
  unfold locOp; rw [dictVal_cAt, dictVal_gX, dictVal_gZ]

/-- What one side of the `E` case does. -/
theorem edgeSide_ok {b b' : StdBody} {i j : ℕ} (h : b.edgeSide i j = .ok b') :
    ∃ a : Bool, Mono a (cAt b.cDict i) ∧
      b' = { b with
        cDict := if a then PyDict.set b.cDict j (Clifford.Z.mul ((PyDict.get? b.cDict j).getD Clifford.I))
          else b.cDict
        zDict := addIf b.zDict j (domAt b.xDict i) } := by
  have hz : (match PyDict.get? b.xDict i with
    | some s => if s ≠ ∅ then addCorrectionDomain b.zDict j s else b.zDict
    | none => b.zDict) = addIf b.zDict j (domAt b.xDict i) := by
    unfold addIf domAt
    cases PyDict.get? b.xDict i <;> simp
  unfold StdBody.edgeSide at h
  rw [← hz]
  unfold cAt
  cases hg : PyDict.get? b.cDict i with
  | none =>
    rw [hg] at h
    refine ⟨false, by simp [Clifford.matrix_I]; exact Mono.one, ?_⟩
    cases h; rfl
  | some gate =>
    rw [hg] at h
    simp only [Option.getD_some]
    cases hc : commuteClifford gate b.cDict j with
    | error e => simp only [hc] at h; cases h
    | ok c' =>
      simp only [hc] at h
      cases h
      rcases commuteClifford_ok hc with ⟨h1, h2⟩ | ⟨h1, h2⟩
      · exact ⟨false, mono_of_isDiag h1, by subst h2; rfl⟩
      · exact ⟨true, mono_of_isAnti h1, by subst h2; rfl⟩

theorem erase_comm {β : Type} (d : PyDict ℕ β) (i j : ℕ) :
    PyDict.erase (PyDict.erase d i) j = PyDict.erase (PyDict.erase d j) i := by
  induction d with
  | nil => rfl
  | cons kv d ih =>
    obtain ⟨a, v⟩ := kv
    by_cases h1 : a = i <;> by_cases h2 : a = j
    · subst h1; subst h2; rfl
    · subst h1; simp [PyDict.erase, h2]
    · subst h2; simp [PyDict.erase, h1]
    · simp [PyDict.erase, h1, h2, ih]

theorem cAt_set (c : PyDict ℕ Clifford) (j : ℕ) (g : Clifford) (k : ℕ) :
    cAt (PyDict.set c j g) k = if j = k then g.matrix else cAt c k := by
  unfold cAt; rw [PyDict.get?_set]; split <;> simp

/-- `c` with the `Z` that an anti-diagonal gate leaves on the neighbour. -/
noncomputable def flipC (a : Bool) (c : PyDict ℕ Clifford) (j : ℕ) : PyDict ℕ Clifford :=
  if a then PyDict.set c j (Clifford.Z.mul ((PyDict.get? c j).getD Clifford.I)) else c

theorem cAt_flipC (a : Bool) (c : PyDict ℕ Clifford) (j : ℕ) :
    MatPhaseEq (cAt (flipC a c j) j) (powB Ops.Z a * cAt c j) := by
  unfold flipC
  cases a
  · simp only [Bool.false_eq_true, if_false, powB_false, Matrix.one_mul]; exact MatPhaseEq.refl _
  · simp only [if_true, cAt_set, powB_true]
    have := C01_clifford_matmul Clifford.Z ((PyDict.get? c j).getD Clifford.I)
    rwa [Clifford.matrix_Z] at this

theorem cAt_flipC_ne (a : Bool) (c : PyDict ℕ Clifford) {j k : ℕ} (h : j ≠ k) :
    cAt (flipC a c j) k = cAt c k := by
  unfold flipC; cases a
  · simp
  · simp [cAt_set, h]

theorem erase_flipC (a : Bool) (c : PyDict ℕ Clifford) (j : ℕ) :
    PyDict.erase (flipC a c j) j = PyDict.erase c j := by
  unfold flipC; cases a
  · simp
  · simp only [if_true]; exact erase_set c j _

theorem nodup_flipC {c : PyDict ℕ Clifford} (hc : (PyDict.keys c).Nodup) (a : Bool) (j : ℕ) :
    (PyDict.keys (flipC a c j)).Nodup := by
  unfold flipC; cases a
  · simpa using hc
  · exact PyDict.keys_set_nodup hc j _

theorem keys_flipC {c : PyDict ℕ Clifford} {a : Bool} {j n : ℕ}
    (h : n ∈ PyDict.keys (flipC a c j)) : n = j ∨ n ∈ PyDict.keys c := by
  unfold flipC at h; cases a
  · right; simpa using h
  · exact (PyDict.mem_keys_set c j _ n).1 h

theorem domAt_addIf_self (d : PyDict ℕ (Finset ℕ)) (k : ℕ) (D : Finset ℕ) :
    domAt (addIf d k D) k = domAt d k ∆ D := by rw [domAt_addIf, if_pos rfl]

theorem domAt_addIf_ne (d : PyDict ℕ (Finset ℕ)) {k n : ℕ} (h : k ≠ n) (D : Finset ℕ) :
    domAt (addIf d k D) n = domAt d n := by rw [domAt_addIf, if_neg h]

/-- The new local operator on the neighbour is `Z^a` times the old one, up to phase. -/
theorem neighbour_op {C C' : Mat2} {a m : Bool} (hm : Mono m C) (hC : MatPhaseEq C' (powB Ops.Z a * C))
    (r : ℕ → Bool) (x z D : Finset ℕ) :
    MatPhaseEq (C' * (powB Ops.X (parity r x) * powB Ops.Z (parity r (z ∆ D))))
      (C * (powB Ops.X (parity r x) * powB Ops.Z (parity r z)) *
        powB Ops.Z (Bool.xor a (parity r D))) := by
  have h1 : Mono (Bool.xor m (parity r x)) (C * powB Ops.X (parity r x)) := hm.mul (Mono.powX _)
  rw [parity_symmDiff, ← powB_mul_Z, ← powB_mul_Z]
  refine (hC.mul (MatPhaseEq.refl _)).trans ?_
  have h2 := (h1.comm_Z a).mul (MatPhaseEq.refl (powB Ops.Z (parity r z) * powB Ops.Z (parity r D)))
  simp only [Matrix.mul_assoc] at h2 ⊢
  refine h2.trans ?_
  simp only [powB_mul_Z]
  rw [← Bool.xor_assoc, ← Bool.xor_assoc, Bool.xor_comm a]
  exact MatPhaseEq.refl _

theorem corrOp_edge (r : ℕ → Bool) {b b1 b2 : StdBody} {u v : ℕ} (huv : u ≠ v)
    (hc : (PyDict.keys b.cDict).Nodup) (hx : (PyDict.keys b.xDict).Nodup)
    (hz : (PyDict.keys b.zDict).Nodup)
    (h1 : b.edgeSide u v = .ok b1) (h2 : b1.edgeSide v u = .ok b2) :
    OpPhaseEq (fun φ => cz u v (corrOp r b.cDict b.xDict b.zDict φ))
      (fun φ => corrOp r b2.cDict b2.xDict b2.zDict (cz u v φ)) := by
  obtain ⟨a, ma, rfl⟩ := edgeSide_ok h1
  obtain ⟨a', ma', rfl⟩ := edgeSide_ok h2
  change Mono a' (cAt (flipC a b.cDict v) v) at ma'
  have hvu := huv.symm
  have mav : Mono a' (cAt b.cDict v) := by
    have h3 := (Mono.powZ a).mul (ma'.of_phase (cAt_flipC a b.cDict v).symm)
    rw [← Matrix.mul_assoc, powB_mul_Z, Bool.xor_self, powB_false, Matrix.one_mul, Bool.false_xor] at h3
    exact h3
  set A := locOp r b.cDict b.xDict b.zDict u with hA
  set B := locOp r b.cDict b.xDict b.zDict v with hB
  have mA : Mono (Bool.xor a (parity r (domAt b.xDict u))) A := by
    rw [hA, locOp_eq]
    have := ma.mul ((Mono.powX (parity r (domAt b.xDict u))).mul (Mono.powZ (parity r (domAt b.zDict u))))
    simpa using this
  have mB : Mono (Bool.xor a' (parity r (domAt b.xDict v))) B := by
    rw [hB, locOp_eq]
    have := mav.mul ((Mono.powX (parity r (domAt b.xDict v))).mul (Mono.powZ (parity r (domAt b.zDict v))))
    simpa using this
  -- the new dictionaries
  set c2 := flipC a' (flipC a b.cDict v) u with hc2
  set z2 := addIf (addIf b.zDict v (domAt b.xDict u)) u (domAt b.xDict v) with hz2
  change OpPhaseEq _ (fun φ => corrOp r c2 b.xDict z2 (cz u v φ))
  have nc2 : (PyDict.keys c2).Nodup := nodup_flipC (nodup_flipC hc _ _) _ _
  have nz2 : (PyDict.keys z2).Nodup := nodup_addIf (nodup_addIf hz _ _) _ _
  -- the split of any state
  have split : ∀ (c : PyDict ℕ Clifford) (z : PyDict ℕ (Finset ℕ)), (PyDict.keys c).Nodup →
      (PyDict.keys z).Nodup → ∀ φ, corrOp r c b.xDict z φ =
      corrOp r (PyDict.erase (PyDict.erase c u) v) (PyDict.erase (PyDict.erase b.xDict u) v)
        (PyDict.erase (PyDict.erase z u) v)
        (op1 (locOp r c b.xDict z v) v (op1 (locOp r c b.xDict z u) u φ)) := by
    intro c z nc nz φ
    rw [corrOp_split r nc hx nz u, corrOp_split r (keys_erase_nodup nc u) (keys_erase_nodup hx u)
      (keys_erase_nodup nz u) v]
    congr 2
    unfold locOp
    rw [dictVal_erase _ nc huv, dictVal_erase _ hx huv, dictVal_erase _ nz huv]
  have ec : PyDict.erase (PyDict.erase c2 u) v = PyDict.erase (PyDict.erase b.cDict u) v := by
    rw [hc2, erase_flipC, erase_comm, erase_flipC, erase_comm]
  have ez : PyDict.erase (PyDict.erase z2 u) v = PyDict.erase (PyDict.erase b.zDict u) v := by
    rw [hz2, erase_addIf, erase_comm, erase_addIf, erase_comm]
  set R := corrOp r (PyDict.erase (PyDict.erase b.cDict u) v) (PyDict.erase (PyDict.erase b.xDict u) v)
        (PyDict.erase (PyDict.erase b.zDict u) v) with hR
  have hl : ∀ φ, cz u v (corrOp r b.cDict b.xDict b.zDict φ) =
      R (op1 (B * powB Ops.Z (Bool.xor a (parity r (domAt b.xDict u)))) v
        (op1 (powB Ops.Z (Bool.xor a' (parity r (domAt b.xDict v))) * A) u (cz u v φ))) := by
    intro φ
    rw [split _ _ hc hz φ, hR, corrOp_cz r]
    · congr 1
      rw [cz_symm, mB.cz hvu, cz_symm, mA.cz huv, ← op1_mul B]
      congr 1
      rw [← op1_mul _ A]
      generalize cz u v φ = χ
      rw [op1_comm (powB Ops.Z (Bool.xor a (parity r (domAt b.xDict u)))) _ hvu,
        op1_comm (powB Ops.Z (Bool.xor a (parity r (domAt b.xDict u)))) _ hvu]
    all_goals first
      | exact not_mem_keys_erase (keys_erase_nodup hc _) _
      | exact not_mem_keys_erase (keys_erase_nodup hx _) _
      | exact not_mem_keys_erase (keys_erase_nodup hz _) _
      | exact not_mem_keys_erase_of (not_mem_keys_erase hc _) _
      | exact not_mem_keys_erase_of (not_mem_keys_erase hx _) _
      | exact not_mem_keys_erase_of (not_mem_keys_erase hz _) _
  have hr : ∀ φ, corrOp r c2 b.xDict z2 (cz u v φ) =
      R (op1 (locOp r c2 b.xDict z2 v) v (op1 (locOp r c2 b.xDict z2 u) u (cz u v φ))) := by
    intro φ; rw [split _ _ nc2 nz2, ec, ez]
  have pv : MatPhaseEq (locOp r c2 b.xDict z2 v)
      (B * powB Ops.Z (Bool.xor a (parity r (domAt b.xDict u)))) := by
    rw [hB, locOp_eq, locOp_eq, hz2, domAt_addIf_ne _ huv, domAt_addIf_self, hc2, cAt_flipC_ne _ _ huv]
    exact neighbour_op mav (cAt_flipC a b.cDict v) r _ _ _
  have pu : MatPhaseEq (locOp r c2 b.xDict z2 u)
      (powB Ops.Z (Bool.xor a' (parity r (domAt b.xDict v))) * A) := by
    refine MatPhaseEq.trans ?_ (mA.comm_Z _).symm
    rw [hA, locOp_eq, locOp_eq, hz2, domAt_addIf_self, domAt_addIf_ne _ hvu]
    refine neighbour_op ma ?_ r _ _ _
    have := cAt_flipC a' (flipC a b.cDict v) u
    rwa [cAt_flipC_ne _ _ hvu] at this
  refine (OpPhaseEq.of_eq hl).trans (OpPhaseEq.trans ?_ (OpPhaseEq.of_eq (fun φ => (hr φ).symm)))
  have h3 := OpPhaseEq.comp (Homog.op1 _ _) (pv.symm.opPhase v) (pu.symm.opPhase u)
  have h4 := OpPhaseEq.comp_left (corrOp_homog r _ _ _ : Homog R) h3
  exact OpPhaseEq.comp_right h4 (cz u v)

end Graphix
