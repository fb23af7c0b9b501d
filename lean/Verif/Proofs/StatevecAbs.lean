import Verif.Proofs.Statevec
import Verif.Proofs.Runnable

/-!
# The kernels, seen on the register of nodes
-/

namespace Graphix

open Function

theorem split_of_getElem? {l : List ℕ} {q n : ℕ} (h : l[q]? = some n) :
    ∃ l1 l2, l = l1 ++ n :: l2 ∧ l1.length = q := by
  obtain ⟨hlt, rfl⟩ := List.getElem?_eq_some_iff.1 h
  refine ⟨l.take q, l.drop (q + 1), ?_, by simp; omega⟩
  rw [List.getElem_cons_drop, List.take_append_drop]

theorem absState_congr {l : List ℕ} {psi psi' : Buf} (h : ∀ i < 2 ^ l.length, psi i = psi' i) :
    absState l psi = absState l psi' := by
  funext b; exact h _ (enc_lt l b)

theorem normSq_congr {n : ℕ} {psi psi' : Buf} (h : ∀ i < 2 ^ n, psi i = psi' i) :
    normSq n psi = normSq n psi' := by
  unfold normSq
  exact Finset.sum_congr rfl (fun i hi => by rw [h i (Finset.mem_range.1 hi)])

/-! ### Single-qubit operators -/

theorem abs_evolve {l1 l2 : List ℕ} {n : ℕ} (hl : (l1 ++ n :: l2).Nodup) (U : Mat2) {order : List (ℕ × ℕ)}
    (ho : order.Perm (blockPairs (l1 ++ n :: l2).length l1.length)) (psi : Buf) :
    absState (l1 ++ n :: l2) (evolveSinglePar order psi U (l1 ++ n :: l2).length l1.length) =
      op1 U n (absState (l1 ++ n :: l2) psi) := by
  have hq : l1.length < (l1 ++ n :: l2).length := by simp
  have he : (l1 ++ n :: l2).length - 1 - l1.length = l2.length := by simp
  have hn1 : n ∉ l1 := by
    intro h
    have := (List.nodup_append.1 hl).2.2 n h n (by simp); exact this rfl
  have hn2 : n ∉ l2 := (List.nodup_cons.1 (List.nodup_append.1 hl).2.1).1
  funext b
  have ev := (evolve_values (op := U) hq ho psi).1 (enc l1 b) (enc_lt l1 b) (enc l2 b)
    (by rw [he]; exact enc_lt l2 b) (b n)
  rw [he] at ev
  unfold absState op1
  simp only []
  rw [enc_split, ev, enc_split, enc_split, enc_update hn1, enc_update hn1, enc_update hn2, enc_update hn2]
  simp [update_self]

theorem normSq_evolve {U : Mat2} (hU : U.conjTranspose * U = 1) {nqubit q : ℕ} (hq : q < nqubit)
    {order : List (ℕ × ℕ)} (ho : order.Perm (blockPairs nqubit q)) (psi : Buf) :
    normSq nqubit (evolveSinglePar order psi U nqubit q) = normSq nqubit psi := by
  unfold normSq
  rw [sum_blocks _ hq, sum_blocks _ hq]
  apply Finset.sum_congr rfl
  intro b hb
  apply Finset.sum_congr rfl
  intro j hj
  rw [Finset.mem_range] at hb hj
  have e0 := (evolve_values (op := U) hq ho psi).1 b hb j hj false
  have e1 := (evolve_values (op := U) hq ho psi).1 b hb j hj true
  simp only [Bool.toNat_false, add_zero, Bool.toNat_true] at e0 e1
  rw [e0, e1]
  generalize psi (2 * b * 2 ^ (nqubit - 1 - q) + j) = x
  generalize psi ((2 * b + 1) * 2 ^ (nqubit - 1 - q) + j) = y
  have h00 := congrFun (congrFun hU false) false
  have h01 := congrFun (congrFun hU false) true
  have h10 := congrFun (congrFun hU true) false
  have h11 := congrFun (congrFun hU true) true
  simp only [mul2_apply, Matrix.conjTranspose_apply, Matrix.one_apply_eq, ne_eq, Bool.false_eq_true,
    not_false_eq_true, Matrix.one_apply_ne, reduceCtorEq] at h00 h01 h10 h11
  apply Complex.ofReal_injective
  push_cast
  simp only [Complex.normSq_eq_conj_mul_self, map_add, map_mul, starRingEnd_apply]
  linear_combination (star x * x) * h00 + (star x * y) * h01 + (star y * x) * h10 + (star y * y) * h11

/-! ### Controlled Z -/

theorem testBit_enc' {l : List ℕ} {q n : ℕ} (h : l[q]? = some n) (b : Basis) :
    (enc l b).testBit (l.length - 1 - q) = b n := by
  obtain ⟨l1, l2, rfl, rfl⟩ := split_of_getElem? h
  have he : (l1 ++ n :: l2).length - 1 - l1.length = l2.length := by simp
  rw [he, testBit_enc]

theorem abs_entangle {l : List ℕ} {q1 q2 u v : ℕ} (h1 : l[q1]? = some u) (h2 : l[q2]? = some v)
    {order : List ℕ} (ho : order.Perm (List.range (2 ^ l.length))) (psi : Buf) :
    absState l (entangleJit order psi l.length q1 q2) = cz u v (absState l psi) := by
  funext b
  unfold absState cz
  rw [entangleJit_eq ho, testBit_enc' h1, testBit_enc' h2]
  by_cases h : b u = true ∧ b v = true
  · rw [if_pos ⟨enc_lt l b, h⟩]; simp [h.1, h.2]
  · rw [if_neg (fun h' => h h'.2), if_neg (by simpa using h), one_mul]

theorem normSq_entangle {order : List ℕ} {nqubit : ℕ} (ho : order.Perm (List.range (2 ^ nqubit)))
    (psi : Buf) (q1 q2 : ℕ) : normSq nqubit (entangleJit order psi nqubit q1 q2) = normSq nqubit psi := by
  unfold normSq
  refine Finset.sum_congr rfl (fun i _ => ?_)
  rw [entangleJit_eq ho]
  split
  · rw [Complex.normSq_neg]
  · rfl

/-! ### Adding nodes -/

/-- Write basis `b'` on the nodes of a register is what `other` sees. -/
theorem abs_tensor (l l' : List ℕ) (psi other : Buf) :
    absState (l ++ l') (tensorJit psi other l.length l'.length) =
      fun b => absState l psi b * absState l' other b := by
  funext b
  unfold absState
  have h' := enc_lt l' b
  rw [tensorJit_eq, if_pos (by rw [← List.length_append]; exact enc_lt _ b), enc_append, add_comm,
    Nat.add_mul_div_right _ _ (by positivity), Nat.div_eq_of_lt h', Nat.add_mul_mod_self_right,
    Nat.mod_eq_of_lt h', zero_add]

theorem normSq_tensor (n k : ℕ) (psi other : Buf) :
    normSq (n + k) (tensorJit psi other n k) = normSq n psi * normSq k other := by
  unfold normSq
  rw [pow_add, sum_range_mul, Finset.sum_mul]
  refine Finset.sum_congr rfl (fun i hi => ?_)
  rw [Finset.mul_sum]
  refine Finset.sum_congr rfl (fun j hj => ?_)
  rw [Finset.mem_range] at hi hj
  rw [tensorJit_eq, if_pos (by rw [pow_add]; nlinarith), add_comm (i * 2 ^ k),
    Nat.add_mul_div_right _ _ (by positivity), Nat.div_eq_of_lt hj, Nat.add_mul_mod_self_right,
    Nat.mod_eq_of_lt hj, zero_add, Complex.normSq_mul]

theorem plus_vec (b : Bool) : PlanarState.plus.vec b = 1 / Real.sqrt 2 := by
  unfold PlanarState.vec PlanarState.plus planarState
  cases b <;> simp

theorem abs_addDefault (l : List ℕ) (n : ℕ) (psi : Buf) :
    absState (l ++ [n]) (addDefaultNodeJit psi l.length) = prep n PlanarState.plus.vec (absState l psi) := by
  funext b
  unfold absState prep
  have hlt := enc_lt (l ++ [n]) b
  rw [List.length_append, List.length_singleton] at hlt
  rw [plus_vec, addDefaultNodeJit_eq, if_pos hlt, enc_append]
  congr 2
  simp only [List.length_singleton, pow_one, enc, List.length_nil, pow_zero, mul_one, add_zero]
  have : (b n).toNat ≤ 1 := Bool.toNat_le _
  omega

theorem normSq_addDefault (n : ℕ) (psi : Buf) :
    normSq (n + 1) (addDefaultNodeJit psi n) = normSq n psi := by
  unfold normSq
  rw [pow_succ, sum_range_mul]
  refine Finset.sum_congr rfl (fun i hi => ?_)
  rw [Finset.mem_range] at hi
  have e : ∀ j < 2, Complex.normSq (addDefaultNodeJit psi n (i * 2 + j)) = 1 / 2 * Complex.normSq (psi i) := by
    intro j hj
    rw [addDefaultNodeJit_eq, if_pos (by rw [pow_succ]; omega), show (i * 2 + j) / 2 = i by omega,
      Complex.normSq_mul]
    congr 1
    rw [show (1 / (Real.sqrt 2 : ℂ)) = ((1 / Real.sqrt 2 : ℝ) : ℂ) by push_cast; rfl, Complex.normSq_ofReal,
      div_mul_div_comm, Real.mul_self_sqrt (by norm_num)]; norm_num
  rw [Finset.sum_range_succ, Finset.sum_range_succ, Finset.sum_range_zero, e 0 (by norm_num), e 1 (by norm_num)]
  ring

theorem single_psi (n : ℕ) (v : Bool → ℂ) (b : Basis) : absState [n] (Statevector.single v).psi b = v (b n) := by
  unfold absState enc Statevector.single
  cases h : b n <;> simp [enc]

theorem normSq_single (v : Bool → ℂ) :
    normSq 1 (Statevector.single v).psi = Complex.normSq (v false) + Complex.normSq (v true) := by
  unfold normSq Statevector.single
  simp [Finset.sum_range_succ]

/-! ### Projecting -/

theorem abs_proj {l1 l2 : List ℕ} {n : ℕ} (hl : (l1 ++ n :: l2).Nodup) (v : Bool → ℂ) (psi : Buf) :
    absState (l1 ++ l2) (projAmp psi v (l1 ++ n :: l2).length l1.length) =
      projOut n v (absState (l1 ++ n :: l2) psi) := by
  have he : (l1 ++ n :: l2).length - 1 - l1.length = l2.length := by simp
  have hn1 : n ∉ l1 := by
    intro h
    have := (List.nodup_append.1 hl).2.2 n h n (by simp); exact this rfl
  have hn2 : n ∉ l2 := (List.nodup_cons.1 (List.nodup_append.1 hl).2.1).1
  funext b
  have hp := projAmp_block psi v (nqubit := (l1 ++ n :: l2).length) (q := l1.length) (b := enc l1 b)
    (j := enc l2 b) (by rw [he]; exact enc_lt l2 b)
  rw [he] at hp
  unfold absState projOut
  simp only []
  rw [enc_append, hp, enc_split, enc_split, enc_update hn1, enc_update hn1, enc_update hn2, enc_update hn2]
  simp [update_self]

/-! ### Permuting -/

theorem permuteIndex_enc {l : List ℕ} (nq : ℕ) (hnq : l.length = nq) (b : Basis) (hl : l.Nodup) :
    ∀ (perm outs : List ℕ) (k : ℕ) (full : List ℕ), full = full.take k ++ outs → full.length = nq →
      perm.length = outs.length → (∀ (j n : ℕ), outs[j]? = some n → ∃ p : ℕ, perm[j]? = some p ∧ l[p]? = some n) →
      permuteIndex nq perm k (enc full b) = (outs.map (fun n => (b n).toNat * 2 ^ (nq - 1 - l.idxOf n))).sum := by
  intro perm
  induction perm with
  | nil =>
    intro outs k full _ _ hlen _
    have : outs = [] := List.eq_nil_of_length_eq_zero (by simpa using hlen.symm)
    subst this; rfl
  | cons p perm ih =>
    intro outs k full hfull hfl hlen hmatch
    cases outs with
    | nil => simp at hlen
    | cons n outs =>
      obtain ⟨p', hp', hlp⟩ := hmatch 0 n (by simp)
      simp at hp'; subst hp'
      have hidx : l.idxOf n = p := by
        obtain ⟨hlt, rfl⟩ := List.getElem?_eq_some_iff.1 hlp
        exact hl.idxOf_getElem p hlt
      have hk : k < full.length := by
        by_contra hcon
        rw [List.take_of_length_le (by omega)] at hfull
        have := congrArg List.length hfull
        simp at this
      have hkn : full[k]? = some n := by
        have htl : (full.take k).length = k := by simp; omega
        rw [hfull, List.getElem?_append_right (by omega)]
        rw [htl]; simp
      have hdrop : full = full.take (k + 1) ++ outs := by
        have h1 : full.drop k = n :: outs := by
          have := congrArg (List.drop k) hfull
          rw [List.drop_append_of_le_length (by simp; omega)] at this
          rw [this, List.drop_take]; simp
        have h2 : full.drop (k + 1) = outs := by
          rw [← List.drop_drop, h1]; rfl
        rw [← h2, List.take_append_drop]
      unfold permuteIndex
      rw [ih outs (k + 1) full hdrop hfl (by simpa using hlen) (by
        intro j m hj
        obtain ⟨p'', h1, h2⟩ := hmatch (j + 1) m (by simpa using hj)
        exact ⟨p'', by simpa using h1, h2⟩)]
      have htb := testBit_enc' hkn b
      rw [hfl] at htb
      rw [htb, List.map_cons, List.sum_cons, hidx]
      congr 1
      cases b n <;> simp

theorem enc_eq_sum (b : Basis) : ∀ (l : List ℕ), l.Nodup →
    enc l b = (l.map (fun n => (b n).toNat * 2 ^ (l.length - 1 - l.idxOf n))).sum
  | [], _ => rfl
  | n :: l, hl => by
    rw [List.nodup_cons] at hl
    rw [enc, enc_eq_sum b l hl.2, List.map_cons, List.sum_cons]
    congr 1
    · simp
    · congr 1
      apply List.map_congr_left
      intro m hm
      have : m ≠ n := by rintro rfl; exact hl.1 hm
      rw [List.idxOf_cons_ne _ this.symm]
      congr 2
      simp; omega

theorem permuteIndex_full {l outs : List ℕ} (hl : l.Nodup) (hp : outs.Perm l) (b : Basis) :
    permuteIndex l.length (outs.map (fun n => l.idxOf n)) 0 (enc outs b) = enc l b := by
  rw [permuteIndex_enc l.length rfl b hl (outs.map (fun n => l.idxOf n)) outs 0 outs (by simp)
    hp.length_eq (by simp), enc_eq_sum b l hl]
  · exact (hp.map _).sum_eq
  · intro j n hj
    refine ⟨l.idxOf n, by simp [hj], ?_⟩
    have hmem : n ∈ l := hp.mem_iff.1 (List.mem_of_getElem? hj)
    exact List.getElem?_idxOf hmem

theorem abs_permute {l outs : List ℕ} (hl : l.Nodup) (hp : outs.Perm l) (psi : Buf) :
    absState outs (fun i => if i < 2 ^ l.length then
      psi (permuteIndex l.length (outs.map (fun n => l.idxOf n)) 0 i) else psi i) = absState l psi := by
  funext b
  unfold absState
  simp only []
  rw [if_pos (by rw [← hp.length_eq]; exact enc_lt _ _), permuteIndex_full hl hp]

end Graphix
