import Verif.Proofs.DensityMatrix
import Verif.Spec.Density
import Verif.Spec.Circuit
import Verif.Props.Simulator
import Verif.Props.Channels

/-!
# Property C56: density matrices
-/

namespace Graphix

open NdArray

/-- The density operator of the nodes of the register `l` with matrix `rho`. -/
noncomputable def absDens (l : List ℕ) (rho : NpMat) : QDens := fun b b' => rho.entry (enc l b) (enc l b')

/-- The entries of a matrix, by bits (most significant first). -/
noncomputable def NpMat.bits (m : NpMat) : List Bool → List Bool → ℂ := fun r c => m.entry (ofBits r) (ofBits c)

theorem allBits_eq (n : ℕ) : allBits n = bitSet n := by ext; rw [mem_allBits, mem_bitSet]

/-- The nodes at the positions `qs` of the register `l`. -/
theorem positions_spec {l : List ℕ} (hl : l.Nodup) {qs nodes : List ℕ} (h : qs.map (fun q => l[q]?) = nodes.map some)
    (hn : nodes.Nodup) : qs.Nodup ∧ (∀ q ∈ qs, q < l.length) ∧ qs.length = nodes.length ∧
      (∀ b : Basis, gather (l.map b) qs = nodes.map b) ∧
      ∀ (b : Basis) (s : List Bool), s.length = nodes.length → putBits (l.map b) qs s = l.map (setBits b nodes s) := by
  have hlen : qs.length = nodes.length := by have := congrArg List.length h; simpa using this
  have hi : ∀ i (h1 : i < qs.length) (h2 : i < nodes.length), l[qs[i]]? = some nodes[i] := by
    intro i h1 h2
    have := congrArg (fun x => x[i]?) h
    simpa [h1, h2] using this
  have hr : ∀ q ∈ qs, q < l.length := by
    intro q hq
    obtain ⟨i, h1, rfl⟩ := List.mem_iff_getElem.1 hq
    exact (List.getElem?_eq_some_iff.1 (hi i h1 (by omega))).1
  have hqs : qs.Nodup := by
    rw [List.nodup_iff_injective_getElem]
    intro ⟨i, h1⟩ ⟨j, h2⟩ e
    simp only at e
    have e1 := hi i h1 (by omega)
    have e2 := hi j h2 (by omega)
    rw [e] at e1
    rw [e1, Option.some_inj] at e2
    have := (List.Nodup.getElem_inj_iff hn).1 e2
    exact Fin.ext this
  have hg : ∀ b : Basis, gather (l.map b) qs = nodes.map b := by
    intro b
    apply List.ext_getElem (by simp [hlen])
    intro i h1 h2
    simp only [gather_length] at h1
    have := hi i h1 (by omega)
    simp [gather, List.getD, this]
  refine ⟨hqs, hr, hlen, hg, fun b s hs => ?_⟩
  apply putBits_eq (by simp)
  · rw [hg]
    apply List.ext_getElem (by simp [hs])
    intro i h1 h2
    simp only [List.length_map] at h1
    simp only [List.getElem_map, setBits]
    rw [if_pos (List.getElem_mem h1), hn.idxOf_getElem]
    simp [List.getD, h2]
  · simp only [gather]
    apply List.map_congr_left
    intro a ha
    rw [List.length_map, mem_free] at ha
    have hx : l[a]? = some l[a] := List.getElem?_eq_getElem ha.1
    have hnot : l[a] ∉ nodes := by
      intro hc
      obtain ⟨i, h1, h2⟩ := List.mem_iff_getElem.1 hc
      have e := hi i (by omega) h1
      rw [h2] at e
      obtain ⟨h3, h4⟩ := List.getElem?_eq_some_iff.1 e
      have := (List.Nodup.getElem_inj_iff hl).1 h4
      exact ha.2 (this ▸ List.getElem_mem _)
    simp [List.getD, hx, setBits, hnot]

/-- The map computed by the common part of `evolve` and `evolve_single`. -/
theorem evolveCore_spec {dm : DensityMatrix} {l : List ℕ} (hl : l.Nodup) (hd : dm.Shape l.length) (op : NpMat)
    {qs nodes : List ℕ} (h : qs.map (fun q => l[q]?) = nodes.map some) (hn : nodes.Nodup) :
    (dm.evolveCore op qs).Shape l.length ∧
      absDens l (dm.evolveCore op qs).rho = conjBy (opN op.bits nodes) (absDens l dm.rho) := by
  obtain ⟨hqs, hr, hlen, hg, hput⟩ := positions_spec hl h hn
  refine ⟨⟨by simp [DensityMatrix.evolveCore, NpMat.ofTensor, hd.nqubit], by simp [DensityMatrix.evolveCore, NpMat.ofTensor, hd.nqubit]⟩, ?_⟩
  funext b b'
  have := evolveCore_entry hd op qs hqs hr (l.map b) (l.map b') (by simp) (by simp)
  rw [ofBits_map, ofBits_map] at this
  rw [absDens, this, hg, hg, hlen]
  unfold conjBy rightBy leftBy opN
  rw [star_sum, ← allBits_eq]
  refine Finset.sum_congr rfl (fun t ht => ?_)
  rw [star_mul', star_star, mul_comm]
  unfold NpMat.bits
  congr 1
  refine Finset.sum_congr rfl (fun s hs => ?_)
  rw [mem_allBits] at ht hs
  rw [hput b s hs, hput b' t ht]
  simp only [ofBits_map]; rfl

/-- **C56** `evolve(op, qubits)` maps `ρ` to `op ρ op†` on the nodes at the given positions. -/
theorem C56_evolve (dm : DensityMatrix) (l : List ℕ) (hl : l.Nodup) (hd : dm.Shape l.length) (op : NpMat)
    (qs nodes : List ℕ) (hr : op.rows = 2 ^ nodes.length) (hc : op.cols = 2 ^ nodes.length)
    (h : qs.map (fun q => l[q]?) = nodes.map some) (hn : nodes.Nodup) :
    ∃ dm', dm.evolve op qs = .ok dm' ∧ dm'.Shape l.length ∧
      absDens l dm'.rho = conjBy (opN op.bits nodes) (absDens l dm.rho) := by
  obtain ⟨hqs, hlt, hlen, -⟩ := positions_spec hl h hn
  obtain ⟨h1, h2⟩ := evolveCore_spec hl hd op h hn
  refine ⟨dm.evolveCore op qs, ?_, h1, h2⟩
  unfold DensityMatrix.evolve
  rw [hd.nqubit, hr, hc, Nat.log2_two_pow]
  simp only [ne_eq, not_true_eq_false, if_false, hlen, hqs]
  rw [if_neg (by simpa using hlt)]

/-- **C56** `evolve` rejects an operator that is not a square matrix of the size of the targets, targets out of range and repeated
targets. -/
theorem C56_evolve_rejects (dm : DensityMatrix) (n : ℕ) (hd : dm.Shape n) (op : NpMat) (qs : List ℕ)
    (h : op.rows ≠ op.cols ∨ op.rows ≠ 2 ^ qs.length ∨ (∃ q ∈ qs, n ≤ q) ∨ ¬ qs.Nodup) :
    dm.evolve op qs = .error .valueError := by
  unfold DensityMatrix.evolve
  rw [hd.nqubit]
  split
  · rfl
  · rename_i h1
    split
    · rfl
    · rename_i h2
      split
      · rfl
      · rename_i h3
        split
        · rfl
        · rename_i h4
          split
          · rfl
          · rename_i h5
            simp only [not_not] at h1 h2 h3 h4 h5
            rcases h with h | h | ⟨q, hq, h⟩ | h
            · exact absurd h1 h
            · rw [h3] at h2; exact absurd h2 h
            · have := h4 q hq; omega
            · exact absurd h5 h

theorem map_singleton_get {l : List ℕ} {q u : ℕ} (h : l[q]? = some u) : [q].map (fun q => l[q]?) = [u].map some := by
  simp [h]

theorem opN_single (U : Mat2) (u : ℕ) : opN (NpMat.ofMat2 U).bits [u] = op1 U u := by
  funext ψ b
  have e : ∀ x : Bool, setBits b [u] [x] = Function.update b u x := by
    intro x; funext m
    by_cases hm : m = u
    · subst hm; simp [setBits]
    · simp [setBits, hm]
  have ho : ∀ x : Bool, (decide (ofBits [x] = 1)) = x := by intro x; cases x <;> rfl
  simp only [opN, List.length_singleton, List.map_cons, List.map_nil, op1]
  have hs : allBits 1 = {[false], [true]} := by decide
  rw [hs, Finset.sum_pair (by decide)]
  simp only [NpMat.bits, NpMat.ofMat2, ho, e]

/-- **C56** `evolve_single`. -/
theorem C56_evolve_single (dm : DensityMatrix) (l : List ℕ) (hl : l.Nodup) (hd : dm.Shape l.length) (U : Mat2)
    (q u : ℕ) (h : l[q]? = some u) :
    ∃ dm', dm.evolveSingle (.ofMat2 U) q = .ok dm' ∧ dm'.Shape l.length ∧
      absDens l dm'.rho = conjBy (op1 U u) (absDens l dm.rho) := by
  obtain ⟨h1, h2⟩ := evolveCore_spec hl hd (.ofMat2 U) (map_singleton_get h) (by simp)
  refine ⟨_, ?_, h1, by rw [h2, opN_single]⟩
  unfold DensityMatrix.evolveSingle
  rw [hd.nqubit, if_neg (by rw [not_not]; exact (List.getElem?_eq_some_iff.1 h).1), if_neg (by simp [NpMat.ofMat2])]

theorem opN_pair (M : NpMat) {u v : ℕ} (huv : u ≠ v) (ψ : QState) (b : Basis) :
    opN M.bits [u, v] ψ b = ∑ x : Bool, ∑ y : Bool, M.entry (2 * (b u).toNat + (b v).toNat) (2 * x.toNat + y.toNat) *
      ψ (Function.update (Function.update b u x) v y) := by
  have hs : allBits 2 = {[false, false], [false, true], [true, false], [true, true]} := by decide
  have e : ∀ x y : Bool, setBits b [u, v] [x, y] = Function.update (Function.update b u x) v y := by
    intro x y; funext m
    by_cases hv : m = v
    · subst hv; simp [setBits, huv, List.idxOf_cons]
    · by_cases hm : m = u
      · subst hm; simp [setBits, hv]
      · simp [setBits, hm, hv]
  have ho : ∀ x y : Bool, ofBits [x, y] = 2 * x.toNat + y.toNat := by intro x y; simp [ofBits]; omega
  simp only [opN, List.length_cons, List.length_nil, hs]
  rw [Finset.sum_insert (by decide), Finset.sum_insert (by decide), Finset.sum_pair (by decide)]
  simp only [NpMat.bits, List.map_cons, List.map_nil, ho, e, Fintype.sum_bool]
  ring

theorem update_self_eq (b : Basis) (u : ℕ) {x : Bool} (h : b u = x) : Function.update b u x = b := by
  subst h; exact Function.update_eq_self _ _

theorem opN_cz {u v : ℕ} (huv : u ≠ v) : opN Ops.npCZ.bits [u, v] = cz u v := by
  funext ψ b
  rw [opN_pair _ huv]
  cases hu : b u <;> cases hv : b v <;>
    simp [Ops.npCZ, NpMat.ofRows, cz, hu, hv, update_self_eq b u hu, update_self_eq b v hv]

theorem opN_cnot {u v : ℕ} (huv : u ≠ v) : opN Ops.npCNOT.bits [u, v] = cnotOp u v := by
  funext ψ b
  rw [opN_pair _ huv]
  cases hu : b u <;> cases hv : b v <;>
    simp [Ops.npCNOT, NpMat.ofRows, cnotOp, hu, hv, update_self_eq b u hu, update_self_eq b v hv]

theorem opN_swap {u v : ℕ} (huv : u ≠ v) : opN Ops.npSWAP.bits [u, v] = swapOp u v := by
  funext ψ b
  rw [opN_pair _ huv]
  have e : b ∘ Equiv.swap u v = Function.update (Function.update b u (b v)) v (b u) := by
    funext m
    by_cases hv : m = v
    · subst hv; simp
    · by_cases hm : m = u
      · subst hm; simp [hv]
      · simp [hm, hv, Equiv.swap_apply_of_ne_of_ne hm hv]
  simp only [swapOp, e]
  cases hu : b u <;> cases hv : b v <;>
    simp [Ops.npSWAP, NpMat.ofRows, update_self_eq b u hu, update_self_eq b v hv]

/-- **C56** `entangle`, `cnot` and `swap` implement controlled Z, controlled NOT and SWAP. -/
theorem C56_two_qubit (dm : DensityMatrix) (l : List ℕ) (hl : l.Nodup) (hd : dm.Shape l.length) (q1 q2 u v : ℕ)
    (h1 : l[q1]? = some u) (h2 : l[q2]? = some v) (huv : u ≠ v) :
    (∃ dm', dm.entangle q1 q2 = .ok dm' ∧ dm'.Shape l.length ∧ absDens l dm'.rho = conjBy (cz u v) (absDens l dm.rho)) ∧
    (∃ dm', dm.cnot q1 q2 = .ok dm' ∧ dm'.Shape l.length ∧ absDens l dm'.rho = conjBy (cnotOp u v) (absDens l dm.rho)) ∧
    (∃ dm', dm.swap q1 q2 = .ok dm' ∧ dm'.Shape l.length ∧ absDens l dm'.rho = conjBy (swapOp u v) (absDens l dm.rho)) := by
  have hm : [q1, q2].map (fun q => l[q]?) = [u, v].map some := by simp [h1, h2]
  have hn : [u, v].Nodup := by simp [huv]
  refine ⟨?_, ?_, ?_⟩
  · rw [← opN_cz huv]; exact C56_evolve dm l hl hd Ops.npCZ _ _ rfl rfl hm hn
  · rw [← opN_cnot huv]; exact C56_evolve dm l hl hd Ops.npCNOT _ _ rfl rfl hm hn
  · rw [← opN_swap huv]; exact C56_evolve dm l hl hd Ops.npSWAP _ _ rfl rfl hm hn

/-- **C56** `entangle` of a qubit with itself is rejected. -/
theorem C56_entangle_self (dm : DensityMatrix) (n : ℕ) (hd : dm.Shape n) (q : ℕ) : dm.entangle q q = .error .valueError :=
  C56_evolve_rejects dm n hd _ _ (by simp)

/-! ### Tensor product, permutation, partial trace -/

theorem absDens_kron {l l' : List ℕ} {a b : NpMat} (hb : b.rows = 2 ^ l'.length) (hb' : b.cols = 2 ^ l'.length) :
    absDens (l ++ l') (a.kron b) = fun x y => absDens l a x y * absDens l' b x y := by
  funext x y
  simp only [absDens, NpMat.kron, enc_append, hb, hb']
  have h : ∀ z, (enc l z * 2 ^ l'.length + enc l' z) / 2 ^ l'.length = enc l z ∧
      (enc l z * 2 ^ l'.length + enc l' z) % 2 ^ l'.length = enc l' z := by
    intro z
    have := enc_lt l' z
    constructor
    · rw [add_comm, Nat.add_mul_div_right _ _ (by positivity), Nat.div_eq_of_lt this, zero_add]
    · rw [add_comm, Nat.add_mul_mod_self_right, Nat.mod_eq_of_lt this]
  rw [(h x).1, (h x).2, (h y).1, (h y).2]

/-- **C56** `tensor` is the tensor product. -/
theorem C56_tensor (dm other : DensityMatrix) (l l' : List ℕ) (hd : dm.Shape l.length) (ho : other.Shape l'.length) :
    ∃ dm', dm.tensor true other = .ok dm' ∧ dm'.Shape (l ++ l').length ∧
      absDens (l ++ l') dm'.rho = fun b b' => absDens l dm.rho b b' * absDens l' other.rho b b' := by
  refine ⟨_, rfl, ⟨?_, ?_⟩, absDens_kron ho.1 ho.2⟩
  · simp [NpMat.kron, hd.1, ho.1, pow_add]
  · simp [NpMat.kron, hd.2, ho.2, pow_add]

theorem absDens_outer (l : List ℕ) (n : ℕ) (psi : ℕ → ℂ) :
    absDens l (NpMat.outer n psi (fun i => star (psi i))) = ketBra (absState l psi) := rfl

theorem init_pure {nodes : List ℕ} {data : InputData} (hd : data.Ok nodes.length) :
    ∃ dm, DensityMatrix.init (.pure data) nodes.length = .ok dm ∧ dm.Shape nodes.length ∧
      absDens nodes dm.rho = ketBra (data.toState nodes) := by
  obtain ⟨sv, h1, h2, h3, -⟩ := init_ok nodes data hd
  refine ⟨⟨.outer (2 ^ sv.nqubit) sv.psi (fun i => star (sv.psi i))⟩, ?_, ⟨by simp [NpMat.outer, h2], by simp [NpMat.outer, h2]⟩, ?_⟩
  · simp only [DensityMatrix.init, h1, bind, Except.bind, pure, Except.pure]
  · rw [absDens_outer, h3]

/-- **C56** `add_nodes` with a state vector tensors in the pure state. -/
theorem C56_add_nodes (dm : DensityMatrix) (l nodes : List ℕ) (hd : dm.Shape l.length) (data : InputData)
    (hdata : data.Ok nodes.length) :
    ∃ dm', dm.addNodes nodes.length (.pure data) = .ok dm' ∧ dm'.Shape (l ++ nodes).length ∧
      absDens (l ++ nodes) dm'.rho = fun b b' => absDens l dm.rho b b' * ketBra (data.toState nodes) b b' := by
  obtain ⟨d, h1, h2, h3⟩ := init_pure hdata
  obtain ⟨dm', h4, h5, h6⟩ := C56_tensor dm d l nodes hd h2
  refine ⟨dm', ?_, h5, by rw [h6, h3]⟩
  simp only [DensityMatrix.addNodes, h1, bind, Except.bind, DensityMatrix.dataCplx, h4]

/-- Adding a node in a pure state is `prep`. -/
theorem addNode_spec (dm : DensityMatrix) (l : List ℕ) (hd : dm.Shape l.length) (n : ℕ) (s : PlanarState) :
    ∃ dm', dm.addNodes 1 (.pure (.state s)) = .ok dm' ∧ dm'.Shape (l ++ [n]).length ∧
      absDens (l ++ [n]) dm'.rho = conjBy (prep n s.vec) (absDens l dm.rho) := by
  obtain ⟨dm', h1, h2, h3⟩ := C56_add_nodes dm l [n] hd (.state s) trivial
  refine ⟨dm', h1, h2, ?_⟩
  rw [h3]
  funext b b'
  have e : ∀ b, prodState [n] [s] b = s.vec (b n) := by intro b; simp [prodState, prep]
  have e2 : InputData.toState [n] (.state s) = prodState [n] [s] := rfl
  simp only [conjBy, rightBy, leftBy, prep, ketBra, e2, e, star_mul', star_star]
  ring

/-- **C56** `permute` with the indices of the nodes `outs` in the register `l` re-orders the register as `outs`. -/
theorem C56_permute (dm : DensityMatrix) (l outs : List ℕ) (hl : l.Nodup) (hd : dm.Shape l.length) (hp : outs.Perm l) :
    ∃ dm', dm.permute (outs.map (fun n => l.idxOf n)) = .ok dm' ∧ dm'.Shape outs.length ∧
      absDens outs dm'.rho = absDens l dm.rho := by
  have hset : (outs.map (fun n => l.idxOf n)).toFinset = Finset.range l.length := by
    ext i
    rw [List.mem_toFinset, List.mem_map, Finset.mem_range]
    constructor
    · rintro ⟨n, hn, rfl⟩
      exact List.idxOf_lt_length_iff.2 (hp.mem_iff.1 hn)
    · intro hi
      exact ⟨l[i], hp.mem_iff.2 (List.getElem_mem hi), hl.idxOf_getElem i hi⟩
  have hmem : ∀ a, a ∈ outs.map (fun n => l.idxOf n) ↔ a < l.length := by
    intro a; rw [← List.mem_toFinset, hset, Finset.mem_range]
  have hc : Statevector.checkPermutation (outs.map (fun n => l.idxOf n)) l.length = .ok () := by
    unfold Statevector.checkPermutation
    rw [if_neg (by rw [not_not, List.length_map, hp.length_eq]), if_neg (by rw [not_not, hset])]
  refine ⟨⟨.ofTensor l.length ((dm.rho.reshape l.length).transpose (outs.map (fun n => l.idxOf n) ++
      (outs.map (fun n => l.idxOf n)).map (· + l.length)))⟩, ?_, ⟨by simp [NpMat.ofTensor, hp.length_eq], by simp [NpMat.ofTensor, hp.length_eq]⟩, ?_⟩
  · simp only [DensityMatrix.permute, hd.nqubit, hc, bind, Except.bind, pure, Except.pure]
  · funext b b'
    have hg : ∀ b : Basis, gather (l.map b) (outs.map (fun n => l.idxOf n)) = outs.map b := by
      intro b
      simp only [gather, List.map_map]
      apply List.map_congr_left
      intro n hn
      have := List.getElem?_idxOf (hp.mem_iff.1 hn)
      simp [List.getD, this]
    have := permute_entry (rho := dm.rho) (n := l.length) (outs.map (fun n => l.idxOf n)) (fun a ha => (hmem a).2 ha)
      (fun a ha => (hmem a).1 ha) (by rw [List.length_map, hp.length_eq]) (l.map b) (l.map b') (by simp) (by simp)
    rw [hg, hg, ofBits_map, ofBits_map, ofBits_map, ofBits_map] at this
    exact this

/-- **C56** `permute` rejects what is not a permutation of the qubits. -/
theorem C56_permute_rejects (dm : DensityMatrix) (n : ℕ) (hd : dm.Shape n) (perm : List ℕ) (h : ¬ perm.Perm (List.range n)) :
    dm.permute perm = .error .valueError := by
  have hc : Statevector.checkPermutation perm n = .error .valueError := by
    unfold Statevector.checkPermutation
    split
    · rfl
    · rename_i h1
      rw [not_not] at h1
      split
      · rfl
      · rename_i h2
        rw [not_not] at h2
        exfalso
        apply h
        have hnd : perm.Nodup := by
          rw [← List.dedup_eq_self]
          apply List.Sublist.eq_of_length (List.dedup_sublist perm)
          rw [← List.card_toFinset, h2, h1]; simp
        rw [List.perm_ext_iff_of_nodup hnd List.nodup_range]
        intro a
        rw [← List.mem_toFinset, h2]; simp
  simp only [DensityMatrix.permute, hd.nqubit, hc, bind, Except.bind]

/-- **C56** `ptrace` is the partial trace over the nodes at the given positions; the others keep their order. -/
theorem C56_ptrace (dm : DensityMatrix) (l : List ℕ) (hl : l.Nodup) (hd : dm.Shape l.length) (hpos : l ≠ [])
    (qs nodes : List ℕ) (h : qs.map (fun q => l[q]?) = nodes.map some) (hn : nodes.Nodup) :
    ∃ dm', dm.ptrace qs = .ok dm' ∧ dm'.Shape (l.filter (· ∉ nodes)).length ∧
      absDens (l.filter (· ∉ nodes)) dm'.rho = traceOutN nodes (absDens l dm.rho) := by
  obtain ⟨hqs, hr, hlen, hg, -⟩ := positions_spec hl h hn
  have hfr : (free l.length qs).map (fun a => l.getD a 0) = l.filter (· ∉ nodes) := by
    have hmem : ∀ a (ha : a < l.length), a ∈ qs ↔ l[a] ∈ nodes := by
      intro a ha
      have key : l[a] ∈ nodes ↔ some l[a] ∈ nodes.map some := by simp
      rw [key, ← h, List.mem_map]
      constructor
      · intro hq; exact ⟨a, hq, by simp [ha]⟩
      · rintro ⟨q, hq, hqe⟩
        obtain ⟨h1, h2⟩ := List.getElem?_eq_some_iff.1 hqe
        have := (List.Nodup.getElem_inj_iff hl).1 h2
        exact this ▸ hq
    have e0 : l = (List.range l.length).map (fun a => l.getD a 0) := by
      apply List.ext_getElem (by simp)
      intro i h1 h2
      simp [List.getD, h1]
    conv_rhs => rw [e0]
    rw [List.filter_map, free]
    congr 1
    apply List.filter_congr
    intro a ha
    rw [List.mem_range] at ha
    simp [List.getD, ha, hmem a ha]
  have hflen : (l.filter (· ∉ nodes)).length = l.length - qs.length := by
    rw [← hfr, List.length_map, free_length hqs hr]
  refine ⟨⟨.ofTensor (l.length - qs.length) (((NpMat.eye (2 ^ qs.length)).reshape qs.length).tensordot (dm.rho.reshape l.length)
      (List.range (2 * qs.length)) (qs ++ qs.map (l.length + ·)))⟩, ?_, ?_, ?_⟩
  · unfold DensityMatrix.ptrace
    simp only [hd.nqubit]
    rw [if_neg (by rw [not_not]; exact List.length_pos_iff.2 hpos), if_neg (by rw [not_not]; exact hr), if_neg (by rw [not_not]; exact hqs)]
  · rw [hflen]; exact ⟨rfl, rfl⟩
  · funext b b'
    have := ptrace_entry (rho := dm.rho) qs hqs hr ((l.filter (· ∉ nodes)).map b) ((l.filter (· ∉ nodes)).map b')
      (by rw [List.length_map, hflen]) (by rw [List.length_map, hflen])
    rw [ofBits_map, ofBits_map] at this
    rw [absDens, this, traceOutN, allBits_eq, hlen]
    refine Finset.sum_congr rfl (fun s hs => ?_)
    rw [mem_bitSet] at hs
    have hm : ∀ b : Basis, merge l.length qs s ((l.filter (· ∉ nodes)).map b) = l.map (setBits b nodes s) := by
      intro b
      apply merge_eq (by simp)
      · rw [hg]
        apply List.ext_getElem (by simp [hs])
        intro i h1 h2
        simp only [List.length_map] at h1
        simp only [List.getElem_map, setBits]
        rw [if_pos (List.getElem_mem h1), hn.idxOf_getElem]
        simp [List.getD, h2]
      · rw [← hfr, List.map_map]
        apply List.map_congr_left
        intro a ha
        have ha' := (mem_free.1 ha).1
        have hnot : l[a] ∉ nodes := by
          have h3 : l.getD a 0 ∈ l.filter (· ∉ nodes) := by rw [← hfr]; exact List.mem_map_of_mem ha
          have := (List.mem_filter.1 h3).2
          simpa [List.getD, ha'] using this
        simp [List.getD, ha', setBits, hnot]
    rw [hm, hm, ofBits_map, ofBits_map]
    rfl

end Graphix
