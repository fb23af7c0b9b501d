import Verif.Proofs.DensityTrace
import Verif.Proofs.NeverZero
import Mathlib.Analysis.Matrix.Spectrum

/-!
# Property C56, continued: normalisation, expectation values, projection, channels, construction
-/

namespace Graphix

open NdArray

/-- The Kraus operators of a channel, by bits. -/
noncomputable def NpChannel.kraus (ch : NpChannel) : List (ℂ × (List Bool → List Bool → ℂ)) := ch.map fun k => (k.1, k.2.bits)

/-! ### Channels -/

theorem channelLoop_spec {dm : DensityMatrix} {l : List ℕ} (hl : l.Nodup) (hd : dm.Shape l.length)
    {qs nodes : List ℕ} (h : qs.map (fun q => l[q]?) = nodes.map some) (hn : nodes.Nodup) :
    ∀ (ch : NpChannel) (acc : NpMat), (∀ k ∈ ch, k.2.rows = 2 ^ nodes.length ∧ k.2.cols = 2 ^ nodes.length) →
      ∃ m, dm.channelLoop qs ch acc = .ok m ∧ m.rows = acc.rows ∧ m.cols = acc.cols ∧
        absDens l m = absDens l acc + krausN ch.kraus nodes (absDens l dm.rho) := by
  intro ch
  induction ch with
  | nil => intro acc _; exact ⟨acc, rfl, rfl, rfl, by simp [krausN, NpChannel.kraus]⟩
  | cons k ch ih =>
    intro acc hk
    obtain ⟨c, op⟩ := k
    obtain ⟨d, h1, h2, h3⟩ := C56_evolve dm l hl hd op qs nodes (hk (c, op) List.mem_cons_self).1 (hk (c, op) List.mem_cons_self).2 h hn
    obtain ⟨m, h4, h5, h6, h7⟩ := ih { acc with entry := fun i j => acc.entry i j + c * star c * d.rho.entry i j }
      (fun k hk' => hk k (by simp [hk']))
    refine ⟨m, ?_, h5, h6, ?_⟩
    · simp only [DensityMatrix.channelLoop, h1, bind, Except.bind, h4]
    · rw [h7]
      have e : absDens l { acc with entry := fun i j => acc.entry i j + c * star c * d.rho.entry i j } =
          absDens l acc + (c * star c) • conjBy (opN op.bits nodes) (absDens l dm.rho) := by
        rw [← h3]; rfl
      rw [e]
      simp only [krausN, NpChannel.kraus, List.map_cons, List.sum_cons]
      rw [add_assoc]

/-- **C56** `apply_channel` with a complete set of Kraus operators maps a density matrix `ρ` to `Σ |c|² K ρ K†` on the given
nodes: it never fails, and the result is a density matrix. -/
theorem C56_apply_channel (dm : DensityMatrix) (l : List ℕ) (hl : l.Nodup) (hd : dm.Shape l.length)
    (hρ : IsDensity l (absDens l dm.rho)) (qs nodes : List ℕ) (h : qs.map (fun q => l[q]?) = nodes.map some) (hn : nodes.Nodup)
    (ch : NpChannel) (hsh : ∀ k ∈ ch, k.2.rows = 2 ^ nodes.length ∧ k.2.cols = 2 ^ nodes.length)
    (hc : KrausComplete nodes.length ch.kraus) :
    ∃ dm', dm.applyChannel ch qs = .ok dm' ∧ dm'.Shape l.length ∧
      absDens l dm'.rho = krausN ch.kraus nodes (absDens l dm.rho) ∧ IsDensity l (absDens l dm'.rho) := by
  have hmem : ∀ n ∈ nodes, n ∈ l := by
    intro n hn'
    have : some n ∈ qs.map (fun q => l[q]?) := by rw [h]; exact List.mem_map_of_mem hn'
    obtain ⟨q, -, hq⟩ := List.mem_map.1 this
    exact List.mem_of_getElem? hq
  obtain ⟨m, h1, h2, h3, h4⟩ := channelLoop_spec hl hd h hn ch ⟨2 ^ dm.nqubit, 2 ^ dm.nqubit, fun _ _ => 0⟩ hsh
  rw [hd.nqubit] at h1 h2 h3 h4
  have e0 : absDens l ⟨2 ^ l.length, 2 ^ l.length, fun _ _ => 0⟩ = 0 := rfl
  rw [e0, zero_add] at h4
  have hdens := hρ.kraus hn hmem hc
  have htr : m.trace = 1 := by
    rw [← traceOn_absDens hl h2, h4]; exact hdens.trace
  refine ⟨⟨m⟩, ?_, ⟨h2, h3⟩, h4, by rw [h4]; exact hdens⟩
  unfold DensityMatrix.applyChannel
  rw [hd.nqubit]
  simp only [h1, bind, Except.bind, htr, ne_eq, not_true_eq_false, if_false, pure, Except.pure]

/-- **C56** `apply_channel` rejects a set of operators for which the trace of the result is not 1. -/
theorem C56_apply_channel_rejects (dm : DensityMatrix) (l : List ℕ) (hl : l.Nodup) (hd : dm.Shape l.length)
    (qs nodes : List ℕ) (h : qs.map (fun q => l[q]?) = nodes.map some) (hn : nodes.Nodup)
    (ch : NpChannel) (hsh : ∀ k ∈ ch, k.2.rows = 2 ^ nodes.length ∧ k.2.cols = 2 ^ nodes.length)
    (ht : traceOn l (krausN ch.kraus nodes (absDens l dm.rho)) ≠ 1) : dm.applyChannel ch qs = .error .valueError := by
  obtain ⟨m, h1, h2, h3, h4⟩ := channelLoop_spec hl hd h hn ch ⟨2 ^ dm.nqubit, 2 ^ dm.nqubit, fun _ _ => 0⟩ hsh
  rw [hd.nqubit] at h1 h2 h3 h4
  have e0 : absDens l ⟨2 ^ l.length, 2 ^ l.length, fun _ _ => 0⟩ = 0 := rfl
  rw [e0, zero_add] at h4
  rw [← h4, traceOn_absDens hl h2] at ht
  unfold DensityMatrix.applyChannel
  rw [hd.nqubit]
  simp only [h1, bind, Except.bind, if_pos ht, throw, throwThe, MonadExceptOf.throw]

/-- The operators of a constructed channel on one qubit are complete. -/
theorem toNp1_complete {ch : KrausChannel Bool} (h : ch.Complete) : KrausComplete 1 ch.toNp1.kraus := by
  intro s hs t ht
  rw [mem_allBits] at hs ht
  match s, t, hs, ht with
  | [x], [y], _, _ =>
    have key := congrFun (congrFun h y) x
    have e : ∀ (L : List (KrausData Bool)), ((L.map fun k : KrausData Bool => k.mat.conjTranspose * k.mat).sum) y x =
        ((L.map fun k : KrausData Bool => (k.coef, (NpMat.ofMat2 k.operator).bits)).map fun k =>
          k.1 * star k.1 * ∑ u ∈ allBits 1, star (k.2 u [y]) * k.2 u [x]).sum := by
      intro L
      induction L with
      | nil => simp
      | cons k L ih =>
        rw [List.map_cons, List.sum_cons, Matrix.add_apply, ih, List.map_cons, List.map_cons, List.sum_cons]
        congr 1
        rw [allBits_one, Finset.sum_pair (by decide), Matrix.mul_apply, Fintype.sum_bool]
        simp only [ofMat2_bits, KrausData.mat, Matrix.conjTranspose_apply, Matrix.smul_apply, smul_eq_mul, star_mul']
        ring
    rw [e] at key
    simp only [NpChannel.kraus, KrausChannel.toNp1, List.map_map] at key ⊢
    simp only [Function.comp_def] at key ⊢
    rw [key, Matrix.one_apply]
    by_cases hxy : x = y
    · simp [hxy]
    · simp [hxy, Ne.symm hxy]

/-- The operators of a constructed channel on two qubits are complete. -/
theorem toNp2_complete {ch : KrausChannel (Bool × Bool)} (h : ch.Complete) : KrausComplete 2 ch.toNp2.kraus := by
  intro s hs t ht
  rw [mem_allBits] at hs ht
  match s, t, hs, ht with
  | [x, x'], [y, y'], _, _ =>
    have key := congrFun (congrFun h (y, y')) (x, x')
    have hb : ∀ (k : KrausData (Bool × Bool)) (a a' b b' : Bool),
        (NpMat.mk 4 4 fun i j => k.operator (decide (2 ≤ i), decide (i % 2 = 1)) (decide (2 ≤ j), decide (j % 2 = 1))).bits
          [a, a'] [b, b'] = k.operator (a, a') (b, b') := by
      intro k a a' b b'; cases a <;> cases a' <;> cases b <;> cases b' <;> rfl
    have e : ∀ (L : List (KrausData (Bool × Bool))),
        ((L.map fun k : KrausData (Bool × Bool) => k.mat.conjTranspose * k.mat).sum) (y, y') (x, x') =
        ((L.map fun k : KrausData (Bool × Bool) => (k.coef, (NpMat.mk 4 4 fun i j => k.operator (decide (2 ≤ i), decide (i % 2 = 1))
          (decide (2 ≤ j), decide (j % 2 = 1))).bits)).map fun k =>
          k.1 * star k.1 * ∑ u ∈ allBits 2, star (k.2 u [y, y']) * k.2 u [x, x']).sum := by
      intro L
      induction L with
      | nil => simp
      | cons k L ih =>
        rw [List.map_cons, List.sum_cons, Matrix.add_apply, ih, List.map_cons, List.map_cons, List.sum_cons]
        congr 1
        rw [sum_allBits_two, Matrix.mul_apply, Fintype.sum_prod_type, Fintype.sum_bool, Fintype.sum_bool, Fintype.sum_bool]
        simp only [hb, KrausData.mat, Matrix.conjTranspose_apply, Matrix.smul_apply, smul_eq_mul, star_mul']
        ring
    rw [e] at key
    simp only [NpChannel.kraus, KrausChannel.toNp2, List.map_map] at key ⊢
    simp only [Function.comp_def] at key ⊢
    rw [key, Matrix.one_apply]
    by_cases hxy : x = y ∧ x' = y'
    · simp [hxy.1, hxy.2]
    · rw [if_neg, if_neg]
      · simpa using hxy
      · simp only [Prod.mk.injEq]; tauto

/-- What `apply_channel` needs of the channel of a noise: square operators of the right size, complete. -/
structure GoodChannel (k : ℕ) (ch : NpChannel) : Prop where
  shape : ∀ x ∈ ch, x.2.rows = 2 ^ k ∧ x.2.cols = 2 ^ k
  complete : KrausComplete k ch.kraus

/-- **C56** The channels of the library, for probabilities between 0 and 1, can be applied. -/
theorem C56_library_channels (user : ℕ → Except PyErr NpChannel) (p : ℝ) (h0 : 0 ≤ p) (h1 : p ≤ 1) (noise : Noise)
    (h : noise = .depolarising p ∨ noise = .twoQubitDepolarising p ∨ noise = .amplitudeDamping p ∨ noise = .twoQubitAmplitudeDamping p) :
    ∃ ch, noise.toKrausChannel user = .ok ch ∧ GoodChannel noise.nqubits ch := by
  have s1 : ∀ ch : KrausChannel Bool, ∀ x ∈ ch.toNp1, x.2.rows = 2 ^ 1 ∧ x.2.cols = 2 ^ 1 := by
    intro ch x hx
    obtain ⟨k, -, rfl⟩ := List.mem_map.1 hx
    exact ⟨rfl, rfl⟩
  have s2 : ∀ ch : KrausChannel (Bool × Bool), ∀ x ∈ ch.toNp2, x.2.rows = 2 ^ 2 ∧ x.2.cols = 2 ^ 2 := by
    intro ch x hx
    obtain ⟨k, -, rfl⟩ := List.mem_map.1 hx
    exact ⟨rfl, rfl⟩
  rcases h with rfl | rfl | rfl | rfl
  · obtain ⟨ch, h2, h3, -⟩ := C43_depolarising p h0 h1
    exact ⟨ch.toNp1, by simp only [Noise.toKrausChannel, h2, bind, Except.bind, pure, Except.pure], s1 ch, toNp1_complete h3⟩
  · obtain ⟨ch, h2, h3, -⟩ := C43_two_qubit_depolarising p h0 h1
    exact ⟨ch.toNp2, by simp only [Noise.toKrausChannel, h2, bind, Except.bind, pure, Except.pure], s2 ch, toNp2_complete h3⟩
  · obtain ⟨ch, h2, h3, -⟩ := C43_amplitude_damping p h0 h1
    exact ⟨ch.toNp1, by simp only [Noise.toKrausChannel, h2, bind, Except.bind, pure, Except.pure], s1 ch, toNp1_complete h3⟩
  · obtain ⟨-, ch, -, h2, h3, -⟩ := C43_two_qubit_amplitude_damping p h0 h1
    exact ⟨ch.toNp2, by simp only [Noise.toKrausChannel, h2, bind, Except.bind, pure, Except.pure], s2 ch, toNp2_complete h3⟩

/-! ### Normalisation, expectation values, projection -/

/-- **C56** `normalize` divides by the trace. -/
theorem C56_normalize (dm : DensityMatrix) (l : List ℕ) (hl : l.Nodup) (hd : dm.Shape l.length)
    (ht : traceOn l (absDens l dm.rho) ≠ 0) :
    ∃ dm', dm.normalize = .ok dm' ∧ dm'.Shape l.length ∧
      absDens l dm'.rho = (traceOn l (absDens l dm.rho))⁻¹ • absDens l dm.rho := by
  rw [traceOn_absDens hl hd.1] at ht ⊢
  refine ⟨⟨{ dm.rho with entry := fun i j => dm.rho.entry i j / dm.rho.trace }⟩, ?_, hd, ?_⟩
  · unfold DensityMatrix.normalize; rw [if_neg ht]
  · funext b b'
    simp only [absDens, Pi.smul_apply, smul_eq_mul, div_eq_mul_inv]
    ring

theorem C56_normalize_zero (dm : DensityMatrix) (l : List ℕ) (hl : l.Nodup) (hd : dm.Shape l.length)
    (ht : traceOn l (absDens l dm.rho) = 0) : dm.normalize = .error .zeroDivisionError := by
  rw [traceOn_absDens hl hd.1] at ht
  unfold DensityMatrix.normalize; rw [if_pos ht]

theorem traceOn_inv_smul {l : List ℕ} {ρ : QDens} (h : traceOn l ρ ≠ 0) : traceOn l ((traceOn l ρ)⁻¹ • ρ) = 1 := by
  rw [traceOn_smul, inv_mul_cancel₀ h]

theorem absDens_smul_one {ρ : QDens} {l : List ℕ} (h : traceOn l ρ = 1) : (traceOn l ρ)⁻¹ • ρ = ρ := by
  rw [h, inv_one, one_smul]

/-- **C56** `expectation_single` returns `Tr(U ρ) / Tr ρ` — and, as a side effect, normalises the state. -/
theorem C56_expectation (dm : DensityMatrix) (l : List ℕ) (hl : l.Nodup) (hd : dm.Shape l.length)
    (ht : traceOn l (absDens l dm.rho) ≠ 0) (U : Mat2) (q n : ℕ) (h : l[q]? = some n) :
    ∃ dm', dm.expectationSingle (.ofMat2 U) q =
        .ok (dm', traceOn l (leftBy (op1 U n) (absDens l dm.rho)) / traceOn l (absDens l dm.rho)) ∧ dm'.Shape l.length ∧
      absDens l dm'.rho = (traceOn l (absDens l dm.rho))⁻¹ • absDens l dm.rho := by
  obtain ⟨st1, h1, h2, h3⟩ := C56_normalize dm l hl hd ht
  obtain ⟨hqs, hr, hlen, hg, hput⟩ := positions_spec hl (map_singleton_get h) (by simp)
  have hq := (List.getElem?_eq_some_iff.1 h).1
  refine ⟨st1, ?_, h2, h3⟩
  unfold DensityMatrix.expectationSingle
  rw [hd.nqubit, if_neg (not_not.2 hq), if_neg (by simp [NpMat.ofMat2])]
  simp only [h1, bind, Except.bind, pure, Except.pure]
  congr 2
  rw [← traceOn_absDens hl (rho := NpMat.ofTensor l.length _) rfl]
  have e : absDens l (NpMat.ofTensor l.length ((((NpMat.ofMat2 U).reshape 1).tensordot (st1.rho.reshape l.length) [1] [q]).moveaxis [0]
      [(q : ℤ)])) = leftBy (op1 U n) (absDens l st1.rho) := by
    funext b b'
    have := expectation_entry (rho := st1.rho) (NpMat.ofMat2 U) q hq (l.map b) (l.map b') (by simp) (by simp)
    rw [ofBits_map l b, ofBits_map l b'] at this
    rw [absDens, this, hg]
    rw [← opN_single, leftBy, opN, List.length_singleton, allBits_eq]
    refine Finset.sum_congr rfl (fun s hs => ?_)
    rw [mem_bitSet] at hs
    rw [hput b s hs, ofBits_map l]; rfl
  rw [e, h3]
  have e2 : leftBy (op1 U n) ((traceOn l (absDens l dm.rho))⁻¹ • absDens l dm.rho) =
      (traceOn l (absDens l dm.rho))⁻¹ • leftBy (op1 U n) (absDens l dm.rho) := by
    funext b b'
    simp only [leftBy, op1, Pi.smul_apply, smul_eq_mul]; ring
  rw [e2, traceOn_smul, div_eq_inv_mul]

theorem IsMixture.herm {ρ : QDens} (h : IsMixture ρ) (b b' : Basis) : star (ρ b b') = ρ b' b := by
  obtain ⟨L, rfl⟩ := h
  induction L with
  | nil => simp
  | cons ψ L ih =>
    simp only [List.map_cons, List.sum_cons, Pi.add_apply, star_add, ih]
    congr 1
    simp [ketBra, mul_comm]

/-- **C56** The expectation value of a Hermitian operator is real. -/
theorem C56_expectation_real {l : List ℕ} {n : ℕ} (hn : n ∈ l) {U : Mat2} (hU : U.conjTranspose = U) {ρ : QDens} (hρ : IsMixture ρ) :
    (traceOn l (leftBy (op1 U n) ρ)).im = 0 := by
  rw [← Complex.conj_eq_iff_im]
  show star _ = _
  rw [traceOn_erase hn, star_sum]
  refine Finset.sum_congr rfl (fun W _ => ?_)
  have hU' : ∀ x y, star (U x y) = U y x := fun x y => by
    conv_rhs => rw [← hU]
    rfl
  simp only [Fintype.sum_bool, leftBy, op1, Function.update_self, Function.update_idem, star_add, star_mul', hU', hρ.herm]
  ring

/-- **C56** `remove_qubit` traces the qubit out and normalises. -/
theorem C56_remove_qubit (dm : DensityMatrix) (l : List ℕ) (hl : l.Nodup) (hd : dm.Shape l.length) (q n : ℕ) (h : l[q]? = some n)
    (ht : traceOn (l.filter (· ∉ [n])) (traceOutN [n] (absDens l dm.rho)) ≠ 0) :
    ∃ dm', dm.removeQubit q = .ok dm' ∧ dm'.Shape (l.filter (· ∉ [n])).length ∧
      absDens (l.filter (· ∉ [n])) dm'.rho =
        (traceOn (l.filter (· ∉ [n])) (traceOutN [n] (absDens l dm.rho)))⁻¹ • traceOutN [n] (absDens l dm.rho) := by
  have hne : l ≠ [] := by rintro rfl; simp at h
  obtain ⟨dm1, h1, h2, h3⟩ := C56_ptrace dm l hl hd hne [q] [n] (map_singleton_get h) (by simp)
  rw [← h3] at ht ⊢
  obtain ⟨dm2, h4, h5, h6⟩ := C56_normalize dm1 _ (hl.filter _) h2 ht
  refine ⟨dm2, ?_, h5, h6⟩
  unfold DensityMatrix.removeQubit
  simp only [h1, bind, Except.bind, h4]

/-- **C56** `project_qubit` with the projector of a unit vector `v` yields the state after the outcome `v`, renormalised, on the other
qubits. (When the probability of the outcome is zero, numpy fills the matrix with NaN.) -/
theorem C56_project (dm : DensityMatrix) (l : List ℕ) (hl : l.Nodup) (hd : dm.Shape l.length) (hρ : IsMixture (absDens l dm.rho))
    (v : Bool → ℂ) (hv : UnitVec v) (q n : ℕ) (h : l[q]? = some n) :
    (traceOn (l.filter (· ∉ [n])) (conjBy (projOut n v) (absDens l dm.rho)) = 0 →
      dm.projectQubit (.ofMat2 (outer v)) q = .error .zeroDivisionError) ∧
    (traceOn (l.filter (· ∉ [n])) (conjBy (projOut n v) (absDens l dm.rho)) ≠ 0 →
      ∃ dm', dm.projectQubit (.ofMat2 (outer v)) q = .ok dm' ∧ dm'.Shape (l.filter (· ∉ [n])).length ∧
        absDens (l.filter (· ∉ [n])) dm'.rho = (traceOn (l.filter (· ∉ [n])) (conjBy (projOut n v) (absDens l dm.rho)))⁻¹ •
          conjBy (projOut n v) (absDens l dm.rho) ∧
        IsDensity (l.filter (· ∉ [n])) (absDens (l.filter (· ∉ [n])) dm'.rho)) := by
  have hv' : v false * star (v false) + v true * star (v true) = 1 := by
    rw [mul_comm, mul_comm (v true)]; exact hv
  obtain ⟨dm1, h1, h2, h3⟩ := C56_evolve_single dm l hl hd (outer v) q n h
  have hne : l ≠ [] := by rintro rfl; simp at h
  constructor
  · intro hz
    obtain ⟨dm2, h4, h5, h6⟩ := C56_ptrace dm1 l hl h2 hne [q] [n] (map_singleton_get h) (by simp)
    rw [h3, traceOut_project hv'] at h6
    rw [← h6] at hz
    have h7 := C56_normalize_zero dm2 _ (hl.filter _) h5 hz
    unfold DensityMatrix.projectQubit DensityMatrix.removeQubit
    simp only [h1, bind, Except.bind, h4, h7]
  · intro hz
    have hz' : traceOn (l.filter (· ∉ [n])) (traceOutN [n] (absDens l dm1.rho)) ≠ 0 := by
      rw [h3, traceOut_project hv']; exact hz
    obtain ⟨dm2, h4, h5, h6⟩ := C56_remove_qubit dm1 l hl h2 q n h hz'
    rw [h3, traceOut_project hv'] at h6
    refine ⟨dm2, ?_, h5, h6, ?_⟩
    · unfold DensityMatrix.projectQubit
      simp only [h1, bind, Except.bind, h4]
    · have hmix := hρ.conjBy (Lin.projOut n v)
      obtain ⟨x, hx, he⟩ := hmix.trace_nonneg (l.filter (· ∉ [n]))
      rw [h6]
      constructor
      · rw [he, ← Complex.ofReal_inv]
        exact hmix.smul _ (inv_nonneg.2 hx)
      · exact traceOn_inv_smul hz

/-! ### Construction from a matrix -/

theorem sum_range_enc {M : Type} [AddCommMonoid M] {l : List ℕ} (hl : l.Nodup) (f : ℕ → M) :
    ∑ i ∈ Finset.range (2 ^ l.length), f i = ∑ S ∈ l.toFinset.powerset, f (enc l (indB S)) := by
  rw [sum_powerset_setBits l l.toFinset hl (by simp) (fun b => f (enc l b)), sdiff_self, Finset.bot_eq_empty,
    Finset.powerset_empty, Finset.sum_singleton, ← sum_bitSet, allBits_eq]
  refine Finset.sum_congr rfl (fun u hu => ?_)
  rw [mem_bitSet] at hu
  rw [← ofBits_map, map_setBits hl _ hu]

theorem psd_of_mixture {l : List ℕ} (hl : l.Nodup) {m : NpMat} (hr : m.rows = 2 ^ l.length) (h : IsMixture (absDens l m)) : m.IsPsd := by
  obtain ⟨L, hL⟩ := h
  have hb : ∀ i < 2 ^ l.length, ∀ j < 2 ^ l.length, ∃ b b', m.entry i j = absDens l m b b' ∧ m.entry j i = absDens l m b' b := by
    intro i hi j hj
    obtain ⟨b, hb⟩ := enc_surj hl i hi
    obtain ⟨b', hb'⟩ := enc_surj hl j hj
    exact ⟨b, b', by rw [absDens, hb, hb'], by rw [absDens, hb, hb']⟩
  constructor
  · intro i hi j hj
    rw [hr] at hi hj
    obtain ⟨b, b', e1, e2⟩ := hb i hi j hj
    rw [e1, e2]
    exact (IsMixture.herm ⟨L, hL⟩ b' b).symm
  · intro v
    rw [hr]
    have e : ∑ i ∈ Finset.range (2 ^ l.length), ∑ j ∈ Finset.range (2 ^ l.length), star (v i) * m.entry i j * v j =
        ∑ S ∈ l.toFinset.powerset, ∑ T ∈ l.toFinset.powerset,
          star (v (enc l (indB S))) * absDens l m (indB S) (indB T) * v (enc l (indB T)) := by
      rw [sum_range_enc hl]
      exact Finset.sum_congr rfl (fun S _ => by rw [sum_range_enc hl]; rfl)
    rw [e, hL]
    clear hL hb e
    induction L with
    | nil => simp
    | cons ψ L ih =>
      have e2 : ∑ S ∈ l.toFinset.powerset, ∑ T ∈ l.toFinset.powerset,
          star (v (enc l (indB S))) * (((ψ :: L).map ketBra).sum : QDens) (indB S) (indB T) * v (enc l (indB T)) =
          ((Complex.normSq (∑ S ∈ l.toFinset.powerset, star (v (enc l (indB S))) * ψ (indB S)) : ℝ) : ℂ) +
          ∑ S ∈ l.toFinset.powerset, ∑ T ∈ l.toFinset.powerset,
            star (v (enc l (indB S))) * ((L.map ketBra).sum : QDens) (indB S) (indB T) * v (enc l (indB T)) := by
        rw [Complex.normSq_eq_conj_mul_self, mul_comm]
        show _ = _ * star _ + _
        rw [star_sum, Finset.sum_mul_sum, ← Finset.sum_add_distrib]
        refine Finset.sum_congr rfl (fun S _ => ?_)
        rw [← Finset.sum_add_distrib]
        refine Finset.sum_congr rfl (fun T _ => ?_)
        simp only [List.map_cons, List.sum_cons, Pi.add_apply, ketBra, star_mul', star_star]
        ring
      rw [e2, Complex.add_re, Complex.ofReal_re]
      exact add_nonneg (Complex.normSq_nonneg _) ih

theorem mixture_of_psd {l : List ℕ} {m : NpMat} (hr : m.rows = 2 ^ l.length) (h : m.IsPsd) : IsMixture (absDens l m) := by
  classical
  set N := 2 ^ l.length with hN
  let A : Matrix (Fin N) (Fin N) ℂ := fun i j => m.entry i j
  have hA : A.IsHermitian := by
    ext i j
    exact (h.1 i (by rw [hr]; exact i.2) j (by rw [hr]; exact j.2)).symm
  have hev : ∀ k, 0 ≤ hA.eigenvalues k := by
    intro k
    rw [hA.eigenvalues_eq]
    set w : Fin N → ℂ := ⇑(hA.eigenvectorBasis k) with hw
    have := h.2 (fun i => if hi : i < N then w ⟨i, hi⟩ else 0)
    rw [hr, Finset.sum_range] at this
    have e : (∑ i : Fin N, ∑ j ∈ Finset.range N, star (if hi : (i : ℕ) < N then w ⟨i, hi⟩ else 0) * m.entry i j *
        (if hj : j < N then w ⟨j, hj⟩ else 0)) = dotProduct (star w) (A.mulVec w) := by
      rw [dotProduct]
      refine Finset.sum_congr rfl (fun i _ => ?_)
      rw [Matrix.mulVec, dotProduct, Finset.mul_sum, Finset.sum_range]
      refine Finset.sum_congr rfl (fun j _ => ?_)
      simp [A, mul_assoc]
    rw [e] at this
    exact this
  have hent : ∀ i j : Fin N, m.entry i j = ∑ k, (hA.eigenvectorUnitary : Matrix (Fin N) (Fin N) ℂ) i k * (hA.eigenvalues k : ℂ) *
      star ((hA.eigenvectorUnitary : Matrix (Fin N) (Fin N) ℂ) j k) := by
    intro i j
    have := congrFun (congrFun hA.spectral_theorem i) j
    rw [Unitary.conjStarAlgAut_apply, Matrix.mul_apply] at this
    rw [show m.entry i j = A i j from rfl, this]
    refine Finset.sum_congr rfl (fun k _ => ?_)
    rw [Matrix.mul_diagonal]
    rfl
  refine ⟨(Finset.univ.toList : List (Fin N)).map (fun k => fun b =>
    (Real.sqrt (hA.eigenvalues k) : ℂ) * (hA.eigenvectorUnitary : Matrix (Fin N) (Fin N) ℂ) ⟨enc l b, enc_lt l b⟩ k), ?_⟩
  rw [List.map_map, Finset.sum_map_toList]
  funext b b'
  rw [Finset.sum_apply, Finset.sum_apply, absDens, hent ⟨enc l b, enc_lt l b⟩ ⟨enc l b', enc_lt l b'⟩]
  refine Finset.sum_congr rfl (fun k _ => ?_)
  simp only [Function.comp, ketBra, star_mul']
  rw [show star (Real.sqrt (hA.eigenvalues k) : ℂ) = (Real.sqrt (hA.eigenvalues k) : ℂ) from Complex.conj_ofReal _]
  have e : (Real.sqrt (hA.eigenvalues k) : ℂ) * (Real.sqrt (hA.eigenvalues k) : ℂ) = (hA.eigenvalues k : ℂ) := by
    rw [← Complex.ofReal_mul, Real.mul_self_sqrt (hev k)]
  rw [← e]; ring

/-- **C56** `DensityMatrix(matrix, nqubit)` accepts exactly the density matrices: mixtures of states, of trace 1, on `nqubit` qubits. -/
theorem C56_init_matrix (c : Bool) (m : NpMat) (l : List ℕ) (hl : l.Nodup) :
    ((∃ dm, DensityMatrix.init (.matrix c m) l.length = .ok dm) ↔
      m.rows = 2 ^ l.length ∧ m.cols = 2 ^ l.length ∧ IsDensity l (absDens l m)) ∧
    ((∃ dm, DensityMatrix.init (.matrix c m) l.length = .ok dm) → DensityMatrix.init (.matrix c m) l.length = .ok ⟨m⟩) ∧
    ((¬ ∃ dm, DensityMatrix.init (.matrix c m) l.length = .ok dm) →
      DensityMatrix.init (.matrix c m) l.length = .error .valueError) := by
  by_cases hq : m.IsQubitOp
  · by_cases hs : m.rows ≠ 2 ^ l.length ∨ m.cols ≠ 2 ^ l.length
    · have : DensityMatrix.init (.matrix c m) l.length = .error .valueError := by
        unfold DensityMatrix.init; simp only [hq, not_true_eq_false, if_false, if_pos hs]
      rw [this]
      refine ⟨⟨fun ⟨_, h⟩ => (by cases h), fun ⟨h1, h2, _⟩ => by tauto⟩, fun ⟨_, h⟩ => (by cases h), fun _ => rfl⟩
    · rw [not_or, not_not, not_not] at hs
      have htr := traceOn_absDens hl hs.1
      by_cases ht : m.trace ≠ 1
      · have : DensityMatrix.init (.matrix c m) l.length = .error .valueError := by
          unfold DensityMatrix.init; simp [hq, hs.1, hs.2, ht]
        rw [this]
        refine ⟨⟨fun ⟨_, h⟩ => (by cases h), fun ⟨_, _, h⟩ => ?_⟩, fun ⟨_, h⟩ => (by cases h), fun _ => rfl⟩
        exact absurd (htr ▸ h.trace) ht
      · rw [not_not] at ht
        by_cases hp : m.IsPsd
        · have : DensityMatrix.init (.matrix c m) l.length = .ok ⟨m⟩ := by
            unfold DensityMatrix.init; simp [hq, hs.1, hs.2, ht, hp]
          rw [this]
          refine ⟨⟨fun _ => ⟨hs.1, hs.2, mixture_of_psd hs.1 hp, by rw [htr, ht]⟩, fun _ => ⟨_, rfl⟩⟩, fun _ => rfl, fun h => ?_⟩
          exact absurd ⟨_, rfl⟩ h
        · have : DensityMatrix.init (.matrix c m) l.length = .error .valueError := by
            unfold DensityMatrix.init; simp [hq, hs.1, hs.2, ht, hp]
          rw [this]
          refine ⟨⟨fun ⟨_, h⟩ => (by cases h), fun ⟨_, _, h⟩ => ?_⟩, fun ⟨_, h⟩ => (by cases h), fun _ => rfl⟩
          exact absurd (psd_of_mixture hl hs.1 h.mixture) hp
  · have : DensityMatrix.init (.matrix c m) l.length = .error .valueError := by
      unfold DensityMatrix.init; simp only [hq, not_false_eq_true, if_true]
    rw [this]
    refine ⟨⟨fun ⟨_, h⟩ => (by cases h), fun ⟨h1, h2, _⟩ => ?_⟩, fun ⟨_, h⟩ => (by cases h), fun _ => rfl⟩
    exact absurd ⟨by rw [h1, h2], _, h1⟩ hq

/-! ### Fidelity -/

/-- **C56** `fidelity` with the state `φ` returns `⟨φ|ρ|φ⟩`, which is real and non-negative: no assertion fails. -/
theorem C56_fidelity (dm : DensityMatrix) (l : List ℕ) (hl : l.Nodup) (hd : dm.Shape l.length) (hρ : IsMixture (absDens l dm.rho))
    (psi : ℕ → ℂ) : ∃ f : ℝ, dm.fidelity psi = .ok f ∧ 0 ≤ f ∧
      (f : ℂ) = ∑ S ∈ l.toFinset.powerset, ∑ T ∈ l.toFinset.powerset,
        star (absState l psi (indB S)) * absDens l dm.rho (indB S) (indB T) * absState l psi (indB T) := by
  have hpsd := psd_of_mixture hl hd.1 hρ
  have e : ∑ i ∈ Finset.range dm.rho.rows, star (psi i) * ∑ j ∈ Finset.range dm.rho.cols, dm.rho.entry i j * psi j =
      ∑ i ∈ Finset.range dm.rho.rows, ∑ j ∈ Finset.range dm.rho.rows, star (psi i) * dm.rho.entry i j * psi j := by
    rw [hd.2, hd.1]
    refine Finset.sum_congr rfl (fun i _ => ?_)
    rw [Finset.mul_sum]
    exact Finset.sum_congr rfl (fun j _ => by ring)
  set X := ∑ i ∈ Finset.range dm.rho.rows, ∑ j ∈ Finset.range dm.rho.rows, star (psi i) * dm.rho.entry i j * psi j with hX
  have hreal : X.im = 0 := by
    rw [← Complex.conj_eq_iff_im]
    show star X = X
    rw [hX, star_sum, Finset.sum_comm]
    refine Finset.sum_congr rfl (fun i hi => ?_)
    rw [star_sum]
    refine Finset.sum_congr rfl (fun j hj => ?_)
    have := hpsd.1 j (Finset.mem_range.1 hj) i (Finset.mem_range.1 hi)
    rw [star_mul', star_mul', star_star, this]; ring
  refine ⟨X.re, ?_, hpsd.2 psi, ?_⟩
  · unfold DensityMatrix.fidelity
    simp only [e, hreal, ne_eq, not_true_eq_false, if_false]
  · have : (X.re : ℂ) = X := Complex.ext rfl (by simp [hreal])
    rw [this, hX, hd.1, sum_range_enc hl]
    exact Finset.sum_congr rfl (fun S _ => by rw [sum_range_enc hl]; rfl)

/-- **C56** The fidelity of two pure states is the squared modulus of their inner product. -/
theorem C56_fidelity_pure (dm : DensityMatrix) (l : List ℕ) (hl : l.Nodup) (hd : dm.Shape l.length) (χ : QState)
    (hχ : absDens l dm.rho = ketBra χ) (psi : ℕ → ℂ) :
    dm.fidelity psi = .ok (Complex.normSq (∑ S ∈ l.toFinset.powerset, star (absState l psi (indB S)) * χ (indB S))) := by
  obtain ⟨f, h1, -, h3⟩ := C56_fidelity dm l hl hd ⟨[χ], by simpa using hχ⟩ psi
  rw [h1]
  congr 1
  have : (f : ℂ) = ((Complex.normSq (∑ S ∈ l.toFinset.powerset, star (absState l psi (indB S)) * χ (indB S)) : ℝ) : ℂ) := by
    rw [h3, hχ, Complex.normSq_eq_conj_mul_self, mul_comm]
    show _ = _ * star _
    rw [star_sum, Finset.sum_mul_sum]
    refine Finset.sum_congr rfl (fun S _ => Finset.sum_congr rfl (fun T _ => ?_))
    simp only [ketBra, star_mul', star_star]; ring
  exact_mod_cast this

/-- **C56** A matrix given with real entries (dtype `float64`) is accepted by the constructor but cannot be added to a register. -/
theorem C56_real_matrix_refused (dm : DensityMatrix) (m : NpMat) (n : ℕ) : ∃ e, dm.addNodes n (.matrix false m) = .error e := by
  unfold DensityMatrix.addNodes DensityMatrix.tensor
  cases DensityMatrix.init (.matrix false m) n with
  | error e => exact ⟨e, rfl⟩
  | ok d => exact ⟨.typeError, rfl⟩

/-! ### Density matrices stay density matrices -/

/-- **C56** A unitary `evolve` keeps density matrices. -/
theorem C56_evolve_density (dm : DensityMatrix) (l : List ℕ) (hl : l.Nodup) (hd : dm.Shape l.length) (hρ : IsDensity l (absDens l dm.rho))
    (op : NpMat) (qs nodes : List ℕ) (hr : op.rows = 2 ^ nodes.length) (hc : op.cols = 2 ^ nodes.length)
    (h : qs.map (fun q => l[q]?) = nodes.map some) (hn : nodes.Nodup)
    (hu : ∀ s ∈ allBits nodes.length, ∀ t ∈ allBits nodes.length,
      ∑ u ∈ allBits nodes.length, star (op.bits u t) * op.bits u s = if s = t then 1 else 0) :
    ∃ dm', dm.evolve op qs = .ok dm' ∧ dm'.Shape l.length ∧ IsDensity l (absDens l dm'.rho) := by
  obtain ⟨dm', h1, h2, h3⟩ := C56_evolve dm l hl hd op qs nodes hr hc h hn
  refine ⟨dm', h1, h2, ?_⟩
  rw [h3]
  refine hρ.unitary hn (fun n hn' => ?_) (fun s hs t ht => by simpa using hu s hs t ht)
  have : some n ∈ qs.map (fun q => l[q]?) := by rw [h]; exact List.mem_map_of_mem hn'
  obtain ⟨q, -, hq⟩ := List.mem_map.1 this
  exact List.mem_of_getElem? hq

theorem IsMixture.mul {ρ σ : QDens} (h : IsMixture ρ) (h' : IsMixture σ) : IsMixture (fun b b' => ρ b b' * σ b b') := by
  obtain ⟨L, rfl⟩ := h
  induction L with
  | nil =>
    have : (fun b b' : Basis => (([] : List QState).map ketBra).sum b b' * σ b b') = (0 : QDens) := by funext b b'; simp
    rw [this]; exact IsMixture.zero
  | cons ψ L ih =>
    have e : (fun b b' : Basis => ((ψ :: L).map ketBra).sum b b' * σ b b') =
        Graphix.conjBy (fun φ b => ψ b * φ b) σ + (fun b b' => ((L.map ketBra).sum : QDens) b b' * σ b b') := by
      funext b b'
      simp only [List.map_cons, List.sum_cons, Pi.add_apply, ketBra, Graphix.conjBy, rightBy, leftBy, star_mul', star_star]
      ring
    rw [e]
    refine IsMixture.add (h'.conjBy ⟨fun φ χ => ?_, fun c φ => ?_⟩) ih
    · funext b; simp [mul_add]
    · funext b; simp; ring

theorem trace_kron (a b : NpMat) (hb : 0 < b.rows) (hb' : b.cols = b.rows) : (a.kron b).trace = a.trace * b.trace := by
  unfold NpMat.trace NpMat.kron
  simp only
  rw [sum_range_mul, Finset.sum_mul_sum]
  refine Finset.sum_congr rfl (fun i _ => Finset.sum_congr rfl (fun j hj => ?_))
  rw [Finset.mem_range] at hj
  rw [hb', add_comm, Nat.add_mul_div_right _ _ hb, Nat.div_eq_of_lt hj, Nat.add_mul_mod_self_right, Nat.mod_eq_of_lt hj, zero_add]

/-- **C56** The tensor product of density matrices is a density matrix. -/
theorem C56_tensor_density (dm other : DensityMatrix) (l l' : List ℕ) (hl : (l ++ l').Nodup) (hd : dm.Shape l.length)
    (ho : other.Shape l'.length) (h1 : IsDensity l (absDens l dm.rho)) (h2 : IsDensity l' (absDens l' other.rho)) :
    ∃ dm', dm.tensor true other = .ok dm' ∧ IsDensity (l ++ l') (absDens (l ++ l') dm'.rho) := by
  obtain ⟨dm', h3, h4, h5⟩ := C56_tensor dm other l l' hd ho
  refine ⟨dm', h3, by rw [h5]; exact h1.mixture.mul h2.mixture, ?_⟩
  rw [traceOn_absDens hl h4.1]
  have : dm' = ⟨dm.rho.kron other.rho⟩ := by
    unfold DensityMatrix.tensor at h3; rw [if_pos rfl] at h3; exact (Except.ok.inj h3).symm
  rw [this, trace_kron _ _ (by rw [ho.1]; positivity) (by rw [ho.1, ho.2]), ← traceOn_absDens (hl.sublist (by simp)) hd.1,
    ← traceOn_absDens (hl.sublist (by simp)) ho.1, h1.trace, h2.trace, one_mul]

/-- The density matrix of a normalised state vector. -/
theorem init_pure_density {nodes : List ℕ} (hn : nodes.Nodup) {data : InputData} (hd : data.Ok nodes.length) :
    IsDensity nodes (ketBra (data.toState nodes)) := by
  obtain ⟨sv, h1, h2, h3, h4⟩ := init_ok nodes data hd
  refine ⟨⟨[data.toState nodes], by simp⟩, ?_⟩
  rw [← h3]
  have : traceOn nodes (ketBra (absState nodes sv.psi)) = ((stateNormSq nodes (absState nodes sv.psi) : ℝ) : ℂ) := by
    unfold traceOn stateNormSq
    push_cast
    refine Finset.sum_congr rfl (fun S _ => ?_)
    rw [ketBra, Complex.normSq_eq_conj_mul_self, mul_comm]; rfl
  rw [this, stateNormSq_abs _ hn, h4, Complex.ofReal_one]

/-- **C56** The partial trace of a density matrix is a density matrix. -/
theorem C56_ptrace_density (dm : DensityMatrix) (l : List ℕ) (hl : l.Nodup) (hd : dm.Shape l.length) (hpos : l ≠ [])
    (qs nodes : List ℕ) (h : qs.map (fun q => l[q]?) = nodes.map some) (hn : nodes.Nodup) (hρ : IsDensity l (absDens l dm.rho)) :
    ∃ dm', dm.ptrace qs = .ok dm' ∧ IsDensity (l.filter (· ∉ nodes)) (absDens (l.filter (· ∉ nodes)) dm'.rho) := by
  obtain ⟨dm', h1, h2, h3⟩ := C56_ptrace dm l hl hd hpos qs nodes h hn
  refine ⟨dm', h1, ?_⟩
  rw [h3]
  have hmem : ∀ n ∈ nodes, n ∈ l := by
    intro n hn'
    have : some n ∈ qs.map (fun q => l[q]?) := by rw [h]; exact List.mem_map_of_mem hn'
    obtain ⟨q, -, hq⟩ := List.mem_map.1 this
    exact List.mem_of_getElem? hq
  constructor
  · have e : ∀ S : Finset (List Bool), IsMixture (∑ s ∈ S, (fun b b' => absDens l dm.rho (setBits b nodes s) (setBits b' nodes s) : QDens)) := by
      intro S
      induction S using Finset.induction_on with
      | empty => exact IsMixture.zero
      | insert a S ha ih =>
        rw [Finset.sum_insert ha]
        refine IsMixture.add ?_ ih
        have e2 : (fun b b' => absDens l dm.rho (setBits b nodes a) (setBits b' nodes a) : QDens) =
            conjBy (fun ψ b => ψ (setBits b nodes a)) (absDens l dm.rho) := by
          funext b b'; simp [conjBy, rightBy, leftBy]
        rw [e2]
        exact hρ.mixture.conjBy ⟨fun _ _ => rfl, fun _ _ => rfl⟩
    have e3 : traceOutN nodes (absDens l dm.rho) =
        ∑ s ∈ allBits nodes.length, (fun b b' => absDens l dm.rho (setBits b nodes s) (setBits b' nodes s) : QDens) := by
      funext b b'
      rw [Finset.sum_apply, Finset.sum_apply]; rfl
    rw [e3]; exact e _
  · rw [← hρ.trace, traceOn_setBits hn hmem]
    unfold traceOn
    have : (l.filter (· ∉ nodes)).toFinset = l.toFinset \ nodes.toFinset := by
      ext m; simp
    rw [this]; rfl

/-- Non-trivial instance: the two-qubit state `|+⟩|+⟩`, entangled, the first qubit depolarised, the second traced out. -/
example : ∃ d0 d1 d2 d3 ch, DensityMatrix.init (.pure (.state PlanarState.plus)) 2 = .ok d0 ∧ d0.entangle 0 1 = .ok d1 ∧
    (Noise.depolarising (1 / 2)).toKrausChannel (fun _ => .ok []) = .ok ch ∧ d1.applyChannel ch [0] = .ok d2 ∧ d2.ptrace [1] = .ok d3 ∧
    IsDensity [7] (absDens [7] d3.rho) := by
  obtain ⟨d0, h0, s0, a0⟩ := init_pure (nodes := [7, 8]) (data := .state PlanarState.plus) trivial
  have q0 : IsDensity [7, 8] (absDens [7, 8] d0.rho) := by rw [a0]; exact init_pure_density (by simp) trivial
  obtain ⟨⟨d1, h1, s1, a1⟩, -, -⟩ := C56_two_qubit d0 [7, 8] (by simp) s0 0 1 7 8 rfl rfl (by decide)
  have q1 : IsDensity [7, 8] (absDens [7, 8] d1.rho) := by rw [a1]; exact q0.cz (by decide) (by simp) (by simp)
  obtain ⟨ch, hc, g⟩ := C56_library_channels (fun _ => .ok []) (1 / 2) (by norm_num) (by norm_num) (.depolarising (1 / 2)) (Or.inl rfl)
  obtain ⟨d2, h2, s2, -, q2⟩ := C56_apply_channel d1 [7, 8] (by simp) s1 q1 [0] [7] rfl (by simp) ch g.shape g.complete
  obtain ⟨d3, h3, q3⟩ := C56_ptrace_density d2 [7, 8] (by simp) s2 (by simp) [1] [8] rfl (by simp) q2
  exact ⟨d0, d1, d2, d3, ch, h0, h1, hc, h2, h3, q3⟩

end Graphix
