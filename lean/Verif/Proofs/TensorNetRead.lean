import Verif.Proofs.TensorNetStep
import Verif.Props.Simulator
import Verif.Proofs.DensityTrace

/-!
# Reading tensor networks: coefficients, state vector, norm
-/

namespace Graphix

open Function

/-- A basis vector. -/
def ketBit (x : Bool) : Bool → ℂ := fun y => if y = x then 1 else 0

theorem planar_ketBit (x : Bool) : PlanarState.vec ⟨.XZ, if x then 1 else 0⟩ = ketBit x := by
  funext y
  unfold PlanarState.vec planarState ketBit
  cases x <;> cases y <;> simp

theorem inner_eq {tn : TensorNet} {L J : Finset ℕ} {ψ : QState} (h : Represents tn L J ψ) : innerInds tn.tensors = J := by
  ext i
  unfold innerInds
  rw [Finset.mem_filter]
  constructor
  · rintro ⟨h1, h2⟩
    rcases h.inds i h1 with hj | ⟨n, hn, rfl⟩
    · exact hj
    · rw [h.occ1 n hn] at h2; omega
  · intro hi
    have := h.occ2 i hi
    exact ⟨mem_allInds_iff_count.2 (by omega), this⟩

theorem allInds_rep {tn : TensorNet} {L J : Finset ℕ} {ψ : QState} (h : Represents tn L J ψ) : allInds tn.tensors = J ∪ L.image tn.d := by
  ext i
  rw [Finset.mem_union, Finset.mem_image]
  constructor
  · exact h.inds i
  · rintro (hi | ⟨n, hn, rfl⟩)
    · have := h.occ2 i hi
      exact mem_allInds_iff_count.2 (by omega)
    · exact mem_allInds_iff_count.2 (by rw [h.occ1 n hn])

theorem disjoint_rep {tn : TensorNet} {L J : Finset ℕ} {ψ : QState} (h : Represents tn L J ψ) : Disjoint J (L.image tn.d) := by
  rw [Finset.disjoint_right]
  intro i hi
  obtain ⟨n, hn, rfl⟩ := Finset.mem_image.1 hi
  exact h.notJ n hn

/-- The projectors of `basis_coefficient`. -/
theorem basisTensors_eq {tn : TensorNet} (b : Basis) : ∀ l : List ℕ, (∀ n ∈ l, tn.dangling.get? n = some (tn.d n)) →
    tn.basisTensors l (enc l b) = .ok (l.map fun n => vecTensor (ketBit (b n)) (tn.d n) n false)
  | [], _ => rfl
  | n :: l, h => by
    have hlt := enc_lt l b
    have hpos : 0 < 2 ^ l.length := by positivity
    have hdiv : enc (n :: l) b / 2 ^ l.length = (b n).toNat := by
      simp only [enc]
      rw [mul_comm, Nat.mul_add_div hpos, Nat.div_eq_of_lt hlt, add_zero]
    have hone : decide (enc (n :: l) b / 2 ^ l.length = 1) = b n := by
      rw [hdiv]; cases b n <;> simp
    have hrest : (if b n = true then enc (n :: l) b - 2 ^ l.length else enc (n :: l) b) = enc l b := by
      simp only [enc]
      cases b n <;> simp
    unfold TensorNet.basisTensors TensorNet.dang
    rw [h n (by simp)]
    simp only [bind, Except.bind, pure, Except.pure, hone, hrest, basisTensors_eq b l fun m hm => h m (by simp [hm])]
    rw [planar_ketBit]
    rfl

theorem netVal_basis (dd : ℕ → ℕ) (b : Basis) (a : ℕ → Bool) : ∀ l : List ℕ,
    netVal (l.map fun n => vecTensor (ketBit (b n)) (dd n) n false) a = (l.map fun n => if a (dd n) = b n then (1 : ℂ) else 0).prod
  | [] => rfl
  | n :: l => by
    rw [List.map_cons, netVal_cons, netVal_basis dd b a l, List.map_cons, List.prod_cons]
    rfl

/-- Assign the bits of `b` to the indices of the nodes of a list. -/
def assignBits (dd : ℕ → ℕ) (b : Basis) : List ℕ → (ℕ → Bool) → ℕ → Bool
  | [], a => a
  | n :: l, a => assignBits dd b l (update a (dd n) (b n))

theorem assignBits_of_not {dd : ℕ → ℕ} {b : Basis} {i : ℕ} : ∀ {l : List ℕ} {a : ℕ → Bool}, (∀ n ∈ l, dd n ≠ i) → assignBits dd b l a i = a i
  | [], _, _ => rfl
  | n :: l, a, h => by
    rw [assignBits, assignBits_of_not fun m hm => h m (by simp [hm]), update_of_ne (h n (by simp)).symm]

theorem assignBits_mem {dd : ℕ → ℕ} {b : Basis} : ∀ {l : List ℕ} {a : ℕ → Bool}, (∀ n ∈ l, ∀ m ∈ l, dd n = dd m → n = m) → ∀ n ∈ l,
    assignBits dd b l a (dd n) = b n
  | [], _, _, n, hn => by simp at hn
  | m :: l, a, h, n, hn => by
    rw [assignBits]
    by_cases hnl : n ∈ l
    · exact assignBits_mem (fun x hx y hy => h x (by simp [hx]) y (by simp [hy])) n hnl
    · have : n = m := by simpa [hnl] using hn
      subst this
      rw [assignBits_of_not, update_self]
      intro k hk hc
      exact hnl (h k (by simp [hk]) n (by simp) hc ▸ hk)

theorem sumOver_deltas {dd : ℕ → ℕ} {b : Basis} {J : Finset ℕ} (f : (ℕ → Bool) → ℂ) : ∀ (l : List ℕ), l.Nodup →
    (∀ n ∈ l, ∀ m ∈ l, dd n = dd m → n = m) → (∀ n ∈ l, dd n ∉ J) → ∀ a,
    sumOver (J ∪ (l.map dd).toFinset) (fun a => f a * (l.map fun n => if a (dd n) = b n then (1 : ℂ) else 0).prod) a =
      sumOver J f (assignBits dd b l a)
  | [], _, _, _, a => by simp [assignBits]
  | n :: l, hnd, hinj, hJ, a => by
    rw [List.nodup_cons] at hnd
    have hn : dd n ∉ J ∪ (l.map dd).toFinset := by
      rw [Finset.mem_union, not_or]
      refine ⟨hJ n (by simp), ?_⟩
      rw [List.mem_toFinset, List.mem_map]
      rintro ⟨m, hm, he⟩
      exact hnd.1 (hinj m (by simp [hm]) n (by simp) he ▸ hm)
    rw [List.map_cons, List.toFinset_cons, Finset.union_insert]
    have e : ∀ a : ℕ → Bool, f a * ((n :: l).map fun n => if a (dd n) = b n then (1 : ℂ) else 0).prod =
        f a * (l.map fun n => if a (dd n) = b n then (1 : ℂ) else 0).prod * if a (dd n) = b n then 1 else 0 := by
      intro a; rw [List.map_cons, List.prod_cons]; ring
    rw [sumOver_congr e, sumOver_insert_delta hn, sumOver_deltas f l hnd.2 (fun x hx y hy => hinj x (by simp [hx]) y (by simp [hy]))
      (fun m hm => hJ m (by simp [hm]))]
    rfl

namespace Represents

variable {tn : TensorNet} {L J : Finset ℕ} {ψ : QState}

/-- `basis_coefficient(basis, normalize=False)` is the amplitude. -/
theorem coefficient (h : Represents tn L J ψ) {l : List ℕ} (hl : l.Nodup) (hL : ∀ n, n ∈ l ↔ n ∈ L) {idx : Option (List ℕ)}
    (hidx : tn.indicesOr idx = .ok l) (b : Basis) : tn.rawCoefficient (enc l b) idx = .ok (ψ b) := by
  have hL' : L = l.toFinset := by ext n; rw [List.mem_toFinset, hL]
  have him : L.image tn.d = (l.map tn.d).toFinset := by rw [hL']; ext i; simp
  unfold TensorNet.rawCoefficient
  rw [hidx]
  simp only [bind, Except.bind, basisTensors_eq b l fun n hn => h.dang n ((hL n).1 hn), pure, Except.pure]
  rw [contractAll_eq _ (fun _ => false), allInds_append, allInds_rep h, him]
  have hsub : allInds (l.map fun n => vecTensor (ketBit (b n)) (tn.d n) n false) = (l.map tn.d).toFinset := by
    ext i
    simp only [mem_allInds, List.mem_map, List.mem_toFinset]
    constructor
    · rintro ⟨_, ⟨n, hn, rfl⟩, hi⟩
      exact ⟨n, hn, (List.mem_singleton.1 hi).symm⟩
    · rintro ⟨n, hn, rfl⟩
      exact ⟨_, ⟨n, hn, rfl⟩, by simp [vecTensor]⟩
  rw [hsub, Finset.union_assoc, Finset.union_self]
  have e : ∀ a : ℕ → Bool, netVal (tn.tensors ++ l.map fun n => vecTensor (ketBit (b n)) (tn.d n) n false) a =
      netVal tn.tensors a * (l.map fun n => if a (tn.d n) = b n then (1 : ℂ) else 0).prod := by
    intro a; rw [netVal_append, netVal_basis]
  have hinj : ∀ n ∈ l, ∀ m ∈ l, tn.d n = tn.d m → n = m := fun n hn m hm => h.inj n ((hL n).1 hn) m ((hL m).1 hm)
  rw [sumOver_congr e, sumOver_deltas _ l hl hinj fun n hn => h.notJ n ((hL n).1 hn)]
  rw [h.val _ b fun n hn => assignBits_mem hinj n ((hL n).2 hn)]

theorem entries (h : Represents tn L J ψ) {l : List ℕ} (hl : l.Nodup) (hL : ∀ n, n ∈ l ↔ n ∈ L) {idx : Option (List ℕ)}
    (hidx : tn.indicesOr idx = .ok l) {psi : ℕ → ℂ} (hψ : absState l psi = ψ) : ∀ k ≤ 2 ^ l.length,
    tn.svEntries idx k = .ok ((List.range k).map psi)
  | 0, _ => rfl
  | k + 1, hk => by
    obtain ⟨b, hb⟩ := enc_surj hl k (by omega)
    unfold TensorNet.svEntries
    rw [h.entries hl hL hidx hψ k (by omega)]
    have hc := h.coefficient hl hL hidx b
    rw [hb] at hc
    simp only [bind, Except.bind, hc, pure, Except.pure]
    rw [List.range_succ, List.map_append, List.map_singleton, ← hψ, absState, hb]

/-- The amplitudes of the state in the order of the nodes `l`. -/
theorem exists_psi (h : Represents tn L J ψ) {l : List ℕ} (hl : l.Nodup) (hL : ∀ n, n ∈ l ↔ n ∈ L) : ∃ psi : ℕ → ℂ, absState l psi = ψ := by
  have hs := enc_surj hl
  classical
  refine ⟨fun i => if hi : i < 2 ^ l.length then ψ (Classical.choose (hs i hi)) else 0, ?_⟩
  funext b
  unfold absState
  dsimp only
  rw [dif_pos (enc_lt l b)]
  refine h.state_congr fun n hn => ?_
  have he := Classical.choose_spec (hs (enc l b) (enc_lt l b))
  generalize Classical.choose (hs (enc l b) (enc_lt l b)) = b' at he
  obtain ⟨l1, l2, rfl⟩ := List.append_of_mem ((hL n).2 hn)
  rw [← testBit_enc l1 l2 n b, ← he, testBit_enc]

/-- `to_statevector` gives the normalised amplitudes. -/
theorem statevector (h : Represents tn L J ψ) {l : List ℕ} (hl : l.Nodup) (hL : ∀ n, n ∈ l ↔ n ∈ L) {idx : Option (List ℕ)}
    (hidx : tn.indicesOr idx = .ok l) {psi : ℕ → ℂ} (hψ : absState l psi = ψ) :
    tn.toStatevector idx = .ok (if normSq l.length psi = 0 then none else
      some ((List.range (2 ^ l.length)).map fun i => psi i / (Real.sqrt (normSq l.length psi) : ℂ))) := by
  have hsum : (((List.range (2 ^ l.length)).map psi).map Complex.normSq).sum = normSq l.length psi := by
    unfold normSq
    rw [List.map_map, ← List.sum_toFinset _ (List.nodup_range), List.toFinset_range]
    rfl
  have hnn : 0 ≤ normSq l.length psi := Finset.sum_nonneg fun _ _ => Complex.normSq_nonneg _
  unfold TensorNet.toStatevector
  rw [hidx]
  simp only [bind, Except.bind, h.entries hl hL hidx hψ _ (le_refl _), pure, Except.pure]
  rw [hsum]
  simp only [Real.sqrt_eq_zero hnn, List.map_map]
  rfl

theorem sum_dangling (h : Represents tn L J ψ) (f : (ℕ → Bool) → ℂ) (g : Basis → ℂ)
    (hf : ∀ a b, (∀ n ∈ L, a (tn.d n) = b n) → f a = g b) (a : ℕ → Bool) :
    sumOver (L.image tn.d) f a = ∑ S ∈ L.powerset, g (indB S) := by
  rw [sumOver_image (fun x hx y hy hxy => h.inj x hx y hy hxy)]
  unfold sumOver
  refine Finset.sum_congr rfl fun S hS => hf _ _ fun n hn => ?_
  have hS' := Finset.mem_powerset.1 hS
  simp only [Finset.mem_image_of_mem tn.d hn, if_true, indB]
  refine decide_eq_decide.2 ⟨?_, ?_⟩
  · rintro ⟨j, hj, he, hc⟩
    rw [if_pos hj, decide_eq_true_eq] at hc
    exact h.inj j hj n hn he ▸ hc
  · intro hn'
    exact ⟨n, hn, rfl, by rw [if_pos hn]; simpa using hn'⟩

end Represents

theorem netVal_reindex (ρ : ℕ → ℕ) (ts : List QTensor) (a : ℕ → Bool) :
    netVal (ts.map fun t => t.reindex ρ) a = netVal ts (a ∘ ρ) := by
  unfold netVal
  rw [List.map_map]
  congr 1
  refine List.map_congr_left fun t _ => ?_
  simp [QTensor.val, QTensor.reindex, List.map_map]

theorem netVal_conj (ts : List QTensor) (a : ℕ → Bool) : netVal (ts.map QTensor.conj) a = star (netVal ts a) := by
  induction ts with
  | nil => simp
  | cons t ts ih =>
    rw [List.map_cons, netVal_cons, ih, netVal_cons, star_mul']
    rfl

theorem inds_conj (ts : List QTensor) : (ts.map QTensor.conj).map QTensor.inds = ts.map QTensor.inds := by
  rw [List.map_map]; rfl

theorem inner_conj (ts : List QTensor) : innerInds (ts.map QTensor.conj) = innerInds ts := by
  unfold innerInds
  rw [allInds_eq, allInds_eq, inds_conj]
  refine Finset.filter_congr fun i _ => ?_
  rw [indCount_eq, indCount_eq, inds_conj]

theorem allInds_reindex (ρ : ℕ → ℕ) (ts : List QTensor) : allInds (ts.map fun t => t.reindex ρ) = (allInds ts).image ρ := by
  ext i
  simp only [allInds, QTensor.reindex, List.mem_toFinset, List.mem_flatMap, List.mem_map, Finset.mem_image]
  constructor
  · rintro ⟨_, ⟨t, ht, rfl⟩, hi⟩
    obtain ⟨j, hj, rfl⟩ := List.mem_map.1 hi
    exact ⟨j, ⟨t, ht, hj⟩, rfl⟩
  · rintro ⟨j, ⟨t, ht, hj⟩, rfl⟩
    exact ⟨_, ⟨t, ht, rfl⟩, List.mem_map.2 ⟨j, hj, rfl⟩⟩

theorem sumOver_star (J : Finset ℕ) (f : (ℕ → Bool) → ℂ) (a : ℕ → Bool) : sumOver J (fun a => star (f a)) a = star (sumOver J f a) := by
  unfold sumOver; rw [star_sum]

namespace Represents

variable {tn : TensorNet} {L J : Finset ℕ} {ψ : QState}

/-- The network with other names of the indices. -/
theorem renamed (h : Represents tn L J ψ) {ρ : ℕ → ℕ} (hρ : ∀ i ∈ J ∪ L.image tn.d, ∀ j ∈ J ∪ L.image tn.d, ρ i = ρ j → i = j)
    (a : ℕ → Bool) (b : Basis) (hab : ∀ n ∈ L, a (ρ (tn.d n)) = b n) :
    sumOver (J.image ρ) (fun a => netVal tn.tensors (a ∘ ρ)) a = ψ b := by
  rw [sumOver_image (fun x hx y hy hxy => hρ x (Finset.mem_union_left _ hx) y (Finset.mem_union_left _ hy) hxy)]
  rw [← h.val (a ∘ ρ) b hab]
  unfold sumOver
  refine Finset.sum_congr rfl fun T _ => netVal_congr fun i hi => ?_
  rw [allInds_rep h] at hi
  simp only [comp_apply]
  by_cases hiJ : i ∈ J
  · rw [if_pos (Finset.mem_image_of_mem ρ hiJ), if_pos hiJ]
    refine decide_eq_decide.2 ⟨?_, ?_⟩
    · rintro ⟨j, hj, he, hc⟩
      rw [if_pos hj, decide_eq_true_eq] at hc
      exact hρ j (Finset.mem_union_left _ hj) i hi he ▸ hc
    · intro hiT
      exact ⟨i, hiJ, rfl, by rw [if_pos hiJ]; simpa using hiT⟩
  · rw [if_neg hiJ, if_neg]
    intro hc
    obtain ⟨j, hj, he⟩ := Finset.mem_image.1 hc
    exact hiJ (hρ j (Finset.mem_union_left _ hj) i hi he ▸ hj)

/-- `norm` is the norm of the state. -/
theorem norm_eq (h : Represents tn L J ψ) {l : List ℕ} (hL : ∀ n, n ∈ l ↔ n ∈ L) : tn.norm = Real.sqrt (stateNormSq l ψ) := by
  have hL' : l.toFinset = L := by ext n; rw [List.mem_toFinset, hL]
  have hval : contractAll (combineNets tn.fresh tn.tensors (tn.tensors.map QTensor.conj)) = ((stateNormSq l ψ : ℝ) : ℂ) := by
    set ρ : ℕ → ℕ := fun i => if i ∈ J then i + tn.fresh else i with hρ
    have hcomb : combineNets tn.fresh tn.tensors (tn.tensors.map QTensor.conj) =
        tn.tensors ++ (tn.tensors.map QTensor.conj).map fun t => t.reindex ρ := by
      unfold combineNets
      rw [inner_conj, inner_eq h]
      simp only [and_self, hρ]
    have hρD : ∀ n ∈ L, ρ (tn.d n) = tn.d n := fun n hn => by simp only [hρ, if_neg (h.notJ n hn)]
    have hinj : ∀ i ∈ J ∪ L.image tn.d, ∀ j ∈ J ∪ L.image tn.d, ρ i = ρ j → i = j := by
      have hlt : ∀ i ∈ J ∪ L.image tn.d, i < tn.fresh := fun i hi => h.fresh_inds (by rw [allInds_rep h]; exact hi)
      intro i hi j hj he
      have h1 := hlt i hi
      have h2 := hlt j hj
      simp only [hρ] at he
      split at he <;> split at he <;> omega
    have himD : (L.image tn.d).image ρ = L.image tn.d := by
      rw [Finset.image_image]
      exact Finset.image_congr fun n hn => hρD n hn
    have hset : allInds (combineNets tn.fresh tn.tensors (tn.tensors.map QTensor.conj)) = J ∪ (J.image ρ ∪ L.image tn.d) := by
      rw [hcomb, allInds_append, allInds_reindex, allInds_eq (tn.tensors.map QTensor.conj), inds_conj, ← allInds_eq, allInds_rep h,
        Finset.image_union, himD]
      ext i; simp only [Finset.mem_union]; tauto
    have hge : ∀ i ∈ J.image ρ, tn.fresh ≤ i := by
      intro i hi
      obtain ⟨j, hj, rfl⟩ := Finset.mem_image.1 hi
      simp only [hρ, if_pos hj]; omega
    have hd1 : Disjoint J (J.image ρ ∪ L.image tn.d) := by
      rw [Finset.disjoint_union_right]
      refine ⟨?_, disjoint_rep h⟩
      rw [Finset.disjoint_right]
      intro i hi hj
      have := hge i hi
      have := h.freshJ i hj
      omega
    have hd2 : Disjoint (J.image ρ) (L.image tn.d) := by
      rw [Finset.disjoint_left]
      intro i hi hj
      obtain ⟨n, hn, rfl⟩ := Finset.mem_image.1 hj
      have := hge _ hi
      have := h.freshD n hn
      omega
    have e : ∀ a, netVal (combineNets tn.fresh tn.tensors (tn.tensors.map QTensor.conj)) a =
        netVal tn.tensors a * star (netVal tn.tensors (a ∘ ρ)) := by
      intro a; rw [hcomb, netVal_append, netVal_reindex, netVal_conj]
    have hagree : ∀ a a' : ℕ → Bool, (∀ i, i ∉ J → a i = a' i) → star (netVal tn.tensors (a ∘ ρ)) = star (netVal tn.tensors (a' ∘ ρ)) := by
      intro a a' haa
      congr 1
      refine netVal_congr fun i hi => haa _ ?_
      simp only [hρ]
      intro hc
      split at hc
      · have := h.freshJ _ hc; omega
      · contradiction
    rw [contractAll_eq _ (fun _ => false), hset, sumOver_union hd1]
    rw [sumOver_union hd2]
    rw [h.sum_dangling _ (fun b => ψ b * star (ψ b)) _ _]
    · unfold stateNormSq
      rw [hL']
      push_cast
      refine Finset.sum_congr rfl fun S _ => ?_
      rw [mul_comm]
      exact (Complex.normSq_eq_conj_mul_self).symm
    · intro a b hab
      have e1 : ∀ a, sumOver J (netVal (combineNets tn.fresh tn.tensors (tn.tensors.map QTensor.conj))) a =
          star (netVal tn.tensors (a ∘ ρ)) * sumOver J (netVal tn.tensors) a := by
        intro a
        rw [sumOver_congr e, sumOver_mul hagree, mul_comm]
      rw [sumOver_congr e1, sumOver_mul, sumOver_star]
      · rw [h.val a b hab, h.renamed hinj a b fun n hn => by rw [hρD n hn, hab n hn]]
        ring
      · intro a a' haa
        refine sumOver_agree (K := allInds tn.tensors) (fun a a' hK => netVal_congr hK) fun i hi _ => haa i ?_
        intro hc
        have := hge i hc
        have := h.fresh_inds hi
        omega
  unfold TensorNet.norm
  rw [hval, Complex.norm_real, Real.norm_of_nonneg]
  exact Finset.sum_nonneg fun _ _ => Complex.normSq_nonneg _

end Represents

end Graphix
