import Verif.Proofs.TensorNetExp
import Verif.Props.TensorNetEx

/-!
# Property C63: operators and expectation values with the tensor-network backend
-/

namespace Graphix

open Function StdPattern TensorNet Pattern

/-- The operator that a matrix stands for: the first bit is the most significant one. -/
def NpMat.bitOp (m : NpMat) (x y : List Bool) : ℂ := m.entry (ofBits x) (ofBits y)

theorem pickNodes_ok {out : List ℕ} : ∀ {qubits : List ℕ}, (∀ q ∈ qubits, q < out.length) →
    TensorNet.pickNodes out qubits = .ok (qubits.map fun q => out.getD q 0)
  | [], _ => rfl
  | q :: qs, h => by
    have hq := h q (by simp)
    simp only [TensorNet.pickNodes, List.getElem?_eq_getElem hq, bind, Except.bind, pure, Except.pure,
      pickNodes_ok (qubits := qs) fun r hr => h r (by simp [hr]), List.map_cons, List.getD_eq_getElem?_getD, Option.getD_some]

theorem pick_mem {out qubits : List ℕ} (h : ∀ q ∈ qubits, q < out.length) : ∀ n ∈ qubits.map (fun q => out.getD q 0), n ∈ out := by
  intro n hn
  obtain ⟨q, hq, rfl⟩ := List.mem_map.1 hn
  simp only [List.getD_eq_getElem?_getD, List.getElem?_eq_getElem (h q hq), Option.getD_some]
  exact List.getElem_mem _

theorem pick_nodup {out qubits : List ℕ} (hout : out.Nodup) (hq : qubits.Nodup) (h : ∀ q ∈ qubits, q < out.length) :
    (qubits.map fun q => out.getD q 0).Nodup := by
  refine List.Nodup.map_on (fun x hx y hy he => ?_) hq
  simp only [List.getD_eq_getElem?_getD, List.getElem?_eq_getElem (h x hx), List.getElem?_eq_getElem (h y hy), Option.getD_some] at he
  exact (List.Nodup.getElem_inj_iff hout).1 he

theorem opN_congr {U V : List Bool → List Bool → ℂ} {nodes : List ℕ} (h : ∀ x y, x.length = nodes.length → y.length = nodes.length → U x y = V x y)
    (ψ : QState) : opN U nodes ψ = opN V nodes ψ := by
  funext b
  unfold opN
  refine Finset.sum_congr rfl fun s hs => ?_
  rw [h _ _ (by simp) (mem_allBits.1 hs)]

theorem opN_scale (U : List Bool → List Bool → ℂ) (nodes : List ℕ) (c : ℂ) (ψ : QState) : opN U nodes (c • ψ) = c • opN U nodes ψ := by
  funext b
  simp only [opN, Pi.smul_apply, smul_eq_mul, Finset.mul_sum]
  exact Finset.sum_congr rfl fun s _ => by ring

theorem reshape_bitOp (op : NpMat) (k : ℕ) {x y : List Bool} (hx : x.length = k) : (op.reshape k).at' (x ++ y) = op.bitOp x y := by
  simp [NpMat.reshape, NpMat.bitOp, ← hx]

/-- What a run represents. -/
theorem TnReady.rep {env : TnEnv} {p : Pattern} {mode : GraphPrepMode} (h : TnReady env p mode) {st : TnState}
    (hst : tnSimulate env p mode (some (.state PlanarState.plus)) = .ok st) {r : ℕ → Bool} (hr : Agrees st.results r) :
    st.net.outputs = some p.outputs ∧ ∃ (J : Finset ℕ) (c : ℂ), ‖c‖ = 1 ∧ Represents st.net p.outputs.toFinset J
      ((c * (Real.sqrt 2 : ℂ) ^ (measuredIn p.seq).length) • semCmds r p.seq (InputData.toState p.inputs (.state PlanarState.plus))) := by
  obtain ⟨sp, hsp⟩ := h.std
  obtain ⟨st', iso, par, h1, inv⟩ := tn_run env h.env_ok p h.outputs h.loop h.signals h.plus sp hsp h.neighbour h.sel h.selAgain mode h.mode_ok
  obtain rfl := Except.ok.inj (hst.symm.trans h1)
  obtain ⟨J, c, hc, hR⟩ := inv.rep r hr
  refine ⟨inv.outs, J, c, hc, ?_⟩
  have hL : p.outputs.toFinset = (liveList p.inputs p.seq).toFinset := by
    ext n; rw [List.mem_toFinset, mem_live_finset, h.outputs.outputs]
  rw [hL]; exact hR

theorem normSq_phase_pow {c : ℂ} (hc : ‖c‖ = 1) (k : ℕ) : Complex.normSq (c * (Real.sqrt 2 : ℂ) ^ k) = (Real.sqrt 2 ^ k) ^ 2 := by
  rw [Complex.normSq_eq_norm_sq, norm_mul, hc, one_mul, norm_pow, Complex.norm_real, Real.norm_of_nonneg (Real.sqrt_nonneg 2)]

/-- **C63** `evolve(operator, qubits)`: after a run, applying a matrix on distinct output qubits multiplies the state by this operator; the
amplitudes and the norm are those of the product. -/
theorem C63_evolve_partial (env : TnEnv) (p : Pattern) (mode : GraphPrepMode) (h : TnReady env p mode) (st : TnState)
    (hst : tnSimulate env p mode (some (.state PlanarState.plus)) = .ok st) (qubits : List ℕ) (hq : qubits.Nodup) (hlt : ∀ q ∈ qubits, q < p.outputs.length)
    (op : NpMat) (hrows : op.rows = 2 ^ qubits.length) (hcols : op.cols = 2 ^ qubits.length) :
    ∃ net, st.net.evolve op qubits = .ok net ∧ net.outputs = some p.outputs ∧
      ∀ r, Agrees st.results r → ∃ c : ℂ, ‖c‖ = 1 ∧ ∀ φ, φ = opN op.bitOp (qubits.map fun q => p.outputs.getD q 0)
          (semCmds r p.seq (InputData.toState p.inputs (.state PlanarState.plus))) →
        (∀ b, net.rawCoefficient (enc p.outputs b) = .ok (c * (Real.sqrt 2 : ℂ) ^ (measuredIn p.seq).length * φ b)) ∧
        net.norm = Real.sqrt 2 ^ (measuredIn p.seq).length * Real.sqrt (stateNormSq p.outputs φ) := by
  set nodes := qubits.map fun q => p.outputs.getD q 0 with hnodes
  have hlen : nodes.length = qubits.length := by simp [hnodes]
  have hnd : nodes.Nodup := pick_nodup h.outputs.outputs_nodup hq hlt
  have hmem : ∀ n ∈ nodes, n ∈ p.outputs.toFinset := fun n hn => List.mem_toFinset.2 (pick_mem hlt n hn)
  have hsize : ¬ (op.rows * op.cols ≠ 2 ^ (2 * qubits.length)) := by rw [hrows, hcols, ← pow_add, two_mul]; simp
  obtain ⟨r0, hr0⟩ := exists_agrees st.results
  obtain ⟨hout, J0, c0, -, hR0⟩ := h.rep hst hr0
  have hev : st.net.evolve op qubits = .ok { st.net with
      tensors := st.net.tensors ++ [⟨List.range' st.net.fresh nodes.length ++ nodes.map st.net.d, (op.reshape qubits.length).at', 0, false⟩]
      fresh := st.net.fresh + nodes.length
      dangling := TensorNet.setDangs st.net.dangling st.net.fresh nodes } := by
    unfold TensorNet.evolve
    simp only [bind, Except.bind, if_neg hsize, TensorNet.requireOutputs, hout, pickNodes_ok hlt, ← hnodes, hR0.dangs_ok hmem, pure, Except.pure, hlen]
  refine ⟨_, hev, hout, fun r hr => ?_⟩
  obtain ⟨-, J, c, hc, hR⟩ := h.rep hst hr
  refine ⟨c, hc, ?_⟩
  rintro φ rfl
  have hE := hR.evolveN hnd hmem (op.reshape qubits.length).at' 0 false
  rw [opN_congr (V := op.bitOp) (fun x y hx _ => reshape_bitOp op _ (by rw [hx, hlen])), opN_scale] at hE
  have hL : ∀ n, n ∈ p.outputs ↔ n ∈ p.outputs.toFinset := fun n => by rw [List.mem_toFinset]
  refine ⟨fun b => ?_, ?_⟩
  · refine (hE.coefficient h.outputs.outputs_nodup hL (idx := none) ?_ b).trans rfl
    simp only [TensorNet.indicesOr, TensorNet.requireOutputs, hout]
  · rw [hE.norm_eq hL, stateNormSq_smul, normSq_phase_pow hc, Real.sqrt_mul (by positivity), Real.sqrt_sq (by positivity)]

/-- **C63** `expectation_value(op, qubits)` after a run is `⟨ψ|op|ψ⟩ / ⟨ψ|ψ⟩`, where `ψ` is the state of the branch of the outcomes and `op` acts on the
given output qubits (which are distinct); it is NaN exactly if the branch has probability zero. -/
theorem C63_expectation_partial (env : TnEnv) (p : Pattern) (mode : GraphPrepMode) (h : TnReady env p mode) (st : TnState)
    (hst : tnSimulate env p mode (some (.state PlanarState.plus)) = .ok st) (qubits : List ℕ) (hq : qubits.Nodup) (hlt : ∀ q ∈ qubits, q < p.outputs.length)
    (op : NpMat) (hrows : op.rows = 2 ^ qubits.length) (hcols : op.cols = 2 ^ qubits.length) (r : ℕ → Bool) (hr : Agrees st.results r)
    (ψ : QState) (hψ : ψ = semCmds r p.seq (InputData.toState p.inputs (.state PlanarState.plus))) :
    st.net.expectationValue op qubits = .ok (if stateNormSq p.outputs ψ = 0 then none else
      some (stateInner p.outputs ψ (opN op.bitOp (qubits.map fun q => p.outputs.getD q 0) ψ) / (stateNormSq p.outputs ψ : ℂ))) := by
  set nodes := qubits.map fun q => p.outputs.getD q 0 with hnodes
  have hlen : nodes.length = qubits.length := by simp [hnodes]
  have hnd : nodes.Nodup := pick_nodup h.outputs.outputs_nodup hq hlt
  have hmem : ∀ n ∈ nodes, n ∈ p.outputs.toFinset := fun n hn => List.mem_toFinset.2 (pick_mem hlt n hn)
  have hsize : ¬ (op.rows * op.cols ≠ 2 ^ (2 * qubits.length)) := by rw [hrows, hcols, ← pow_add, two_mul]; simp
  obtain ⟨hout, J, c, hc, hR⟩ := h.rep hst hr
  rw [← hψ] at hR
  have hL : ∀ n, n ∈ p.outputs ↔ n ∈ p.outputs.toFinset := fun n => by rw [List.mem_toFinset]
  have hocc : ∀ n ∈ p.outputs, indCount st.net.tensors (st.net.d n) = 1 := fun n hn => hR.occ1 n ((hL n).1 hn)
  have hoccC : ∀ n ∈ p.outputs, indCount (st.net.tensors.map QTensor.conj) (st.net.d n) = 1 := by
    intro n hn
    rw [indCount_eq, inds_conj, ← indCount_eq]
    exact hocc n hn
  have hT1 := hR.openTargets_eq (targets := nodes) (new := st.net.fresh) hmem (le_refl _) h.outputs.outputs_nodup (fun n hn => (hL n).1 hn) hocc
  have hT2 := hR.openTargets_eq (targets := nodes) (new := st.net.fresh + qubits.length) hmem (Nat.le_add_right _ _) h.outputs.outputs_nodup
    (fun n hn => (hL n).1 hn) hoccC
  have hcon := hR.expectation_contract h.outputs.outputs_nodup hL hnd hmem (op.reshape qubits.length).at' 0 false
  rw [opN_congr (V := op.bitOp) (fun x y hx _ => reshape_bitOp op _ (by rw [hx, hlen])), opN_scale, hlen] at hcon
  have hnorm := hR.norm_eq hL
  set m := (measuredIn p.seq).length with hm
  set z := c * (Real.sqrt 2 : ℂ) ^ m with hz
  have hzn : Complex.normSq z = (Real.sqrt 2 ^ m) ^ 2 := normSq_phase_pow hc m
  have hz0 : Complex.normSq z ≠ 0 := by rw [hzn]; positivity
  rw [stateNormSq_smul] at hnorm
  have hnn : 0 ≤ stateNormSq p.outputs ψ := Finset.sum_nonneg fun _ _ => Complex.normSq_nonneg _
  have hinner : stateInner p.outputs (z • ψ) (z • opN op.bitOp nodes ψ) = (Complex.normSq z : ℂ) * stateInner p.outputs ψ (opN op.bitOp nodes ψ) := by
    unfold stateInner
    rw [Finset.mul_sum]
    refine Finset.sum_congr rfl fun S _ => ?_
    simp only [Pi.smul_apply, smul_eq_mul, star_mul']
    rw [Complex.normSq_eq_conj_mul_self]
    simp only [RCLike.star_def]
    ring
  unfold TensorNet.expectationValue
  simp only [bind, Except.bind, TensorNet.indicesOr, TensorNet.requireOutputs, hout, pickNodes_ok hlt, ← hnodes, if_neg hsize, hT1, hT2, pure, Except.pure]
  congr 1
  rw [hcon, hinner]
  have hn0 : st.net.norm = 0 ↔ stateNormSq p.outputs ψ = 0 := by
    rw [hnorm, Real.sqrt_eq_zero (mul_nonneg (Complex.normSq_nonneg _) hnn), mul_eq_zero]
    exact ⟨fun hh => hh.resolve_left hz0, Or.inr⟩
  by_cases h0 : stateNormSq p.outputs ψ = 0
  · rw [if_pos h0, if_pos (hn0.2 h0)]
  · rw [if_neg h0, if_neg (fun hh => h0 (hn0.1 hh))]
    congr 1
    have hsq : ((st.net.norm : ℝ) : ℂ) ^ 2 = (Complex.normSq z : ℂ) * (stateNormSq p.outputs ψ : ℂ) := by
      rw [← Complex.ofReal_pow, hnorm, Real.sq_sqrt (mul_nonneg (Complex.normSq_nonneg _) hnn), Complex.ofReal_mul]
    rw [hsq, mul_div_mul_left _ _ (Complex.ofReal_ne_zero.2 hz0)]

/-- **C63** `expectation_value` and `evolve` refuse a matrix that has not `4 ** len(qubits)` entries (`ValueError`). -/
theorem C63_wrong_size (tn : TensorNet) (op : NpMat) (qubits : List ℕ) (out : List ℕ) (hout : tn.outputs = some out)
    (hlt : ∀ q ∈ qubits, q < out.length) (hs : op.rows * op.cols ≠ 4 ^ qubits.length) :
    tn.evolve op qubits = .error .valueError ∧ tn.expectationValue op qubits = .error .valueError := by
  have hs' : op.rows * op.cols ≠ 2 ^ (2 * qubits.length) := by rw [pow_mul]; exact hs
  constructor
  · unfold TensorNet.evolve
    simp only [bind, Except.bind, if_pos hs', throw, throwThe, MonadExceptOf.throw]
  · unfold TensorNet.expectationValue
    simp only [bind, Except.bind, TensorNet.indicesOr, TensorNet.requireOutputs, hout, pickNodes_ok hlt, if_pos hs', throw, throwThe, MonadExceptOf.throw]

/-- The hypotheses are met: X on the output of the example. -/
example : ∃ st net, tnSimulate (exTnEnv {1}) stdExample .auto (some (.state PlanarState.plus)) = .ok st ∧
    st.net.evolve ⟨2, 2, fun i j => if i = j then 0 else 1⟩ [0] = .ok net ∧
    (∃ v, st.net.expectationValue ⟨2, 2, fun i j => if i = j then 0 else 1⟩ [0] = .ok v) := by
  obtain ⟨st, h1, -⟩ := (stdExample_ready {1}).run
  have hlt : ∀ q ∈ [0], q < stdExample.outputs.length := by decide
  obtain ⟨net, h2, -⟩ := C63_evolve_partial _ _ _ (stdExample_ready {1}) st h1 [0] (by simp) hlt ⟨2, 2, fun i j => if i = j then 0 else 1⟩ rfl rfl
  obtain ⟨r, hr⟩ := exists_agrees st.results
  exact ⟨st, net, h1, h2, _, C63_expectation_partial _ _ _ (stdExample_ready {1}) st h1 [0] (by simp) hlt
    ⟨2, 2, fun i j => if i = j then 0 else 1⟩ rfl rfl r hr _ rfl⟩

end Graphix
