import Verif.Proofs.CircSim
import Verif.Spec.CircRun
import Verif.Props.Circuit
import Verif.Props.CircuitBasis
import Verif.Props.DensitySim
import Verif.Proofs.DensityTrace
import Verif.Props.BackendsAgree

/-! # Runs of circuits: the steps -/

namespace Graphix

open Function

/-! ### Gates -/

theorem Instr.gate_lin (i : Instr) : Lin i.gate := by
  refine ⟨fun ψ φ => ?_, i.gate_homog⟩
  cases i <;> simp only [Instr.gate, op1_add, id] <;> funext b <;> simp only [ccxOp, rzzOp, cnotOp, swapOp, Graphix.cz, Pi.add_apply] <;> ring

theorem semInstrs_lin (o : ℕ → Bool) (l : List Instr) (k : ℕ) : Lin (semInstrs o k l) := by
  induction l generalizing k with
  | nil => exact Lin.id
  | cons i l ih =>
    by_cases h : i.isGate
    · have e : semInstrs o k (i :: l) = fun ψ => semInstrs o k l (i.gate ψ) := by funext ψ; exact semInstrs_cons_gate o k h l ψ
      rw [e]; exact (ih k).comp i.gate_lin
    · cases i <;> first | exact absurd trivial h | skip
      rename_i t a
      have e : semInstrs o k (.M t a :: l) = fun ψ => semInstrs o (k + 1) l (projOut t (measVec (.pauli ⟨a, .plus⟩) (o k)) ψ) := by
        funext ψ; rfl
      rw [e]; exact (ih (k + 1)).comp (Lin.projOut _ _)

theorem circMeasured_append (l l' : List Instr) : circMeasured (l ++ l') = circMeasured l ++ circMeasured l' := by
  simp [circMeasured, List.filterMap_append]

theorem circMeasured_gate {i : Instr} (h : i.isGate) : circMeasured [i] = [] := by
  cases i <;> first | rfl | exact h.elim

theorem circMeasured_M (t : ℕ) (a : Axis) : circMeasured [.M t a] = [t] := rfl

theorem semInstrs_append (o : ℕ → Bool) (l l' : List Instr) (k : ℕ) (ψ : QState) :
    semInstrs o k (l ++ l') ψ = semInstrs o (k + (circMeasured l).length) l' (semInstrs o k l ψ) := by
  induction l generalizing k ψ with
  | nil => rfl
  | cons i l ih =>
    have e : circMeasured (i :: l) = circMeasured [i] ++ circMeasured l := circMeasured_append [i] l
    by_cases h : i.isGate
    · rw [List.cons_append, semInstrs_cons_gate o k h, semInstrs_cons_gate o k h, ih, e, circMeasured_gate h, List.nil_append]
    · cases i <;> first | exact absurd trivial h | skip
      rw [List.cons_append, semInstrs_cons_M, semInstrs_cons_M, ih, e, circMeasured_M]
      congr 1
      simp only [List.length_append, List.length_singleton]; omega

theorem semInstrs_congr (o o' : ℕ → Bool) (l : List Instr) : ∀ (k : ℕ) (ψ : QState),
    (∀ j, k ≤ j → j < k + (circMeasured l).length → o j = o' j) → semInstrs o k l ψ = semInstrs o' k l ψ := by
  induction l with
  | nil => intro k ψ _; rfl
  | cons i l ih =>
    intro k ψ h
    have e : circMeasured (i :: l) = circMeasured [i] ++ circMeasured l := circMeasured_append [i] l
    by_cases hg : i.isGate
    · rw [e, circMeasured_gate hg, List.nil_append] at h
      rw [semInstrs_cons_gate o k hg, semInstrs_cons_gate o' k hg, ih k _ h]
    · cases i <;> first | exact absurd trivial hg | skip
      rw [e, circMeasured_M, List.length_append, List.length_singleton] at h
      rw [semInstrs_cons_M, semInstrs_cons_M, h k le_rfl (by omega)]
      exact ih (k + 1) _ (fun j h1 h2 => h j (by omega) (by omega))

theorem circState_gate (ψ₀ : QState) (l : List Instr) (ms : List Bool) {i : Instr} (h : i.isGate) :
    circState ψ₀ (l ++ [i]) ms = i.gate (circState ψ₀ l ms) := by
  unfold circState
  rw [semInstrs_append, semInstrs_cons_gate _ _ h]; rfl

theorem outcomeOf_append {ms : List Bool} {o : Bool} {k : ℕ} (h : k < ms.length) : outcomeOf (ms ++ [o]) k = outcomeOf ms k := by
  simp [outcomeOf, List.getD, List.getElem?_append_left h]

theorem outcomeOf_last (ms : List Bool) (o : Bool) : outcomeOf (ms ++ [o]) ms.length = o := by
  simp [outcomeOf, List.getD]

theorem circState_M (ψ₀ : QState) (l : List Instr) (ms : List Bool) (hlen : ms.length = (circMeasured l).length) (t : ℕ) (a : Axis)
    (o : Bool) : circState ψ₀ (l ++ [.M t a]) (ms ++ [o]) = projOut t (measVec (.pauli ⟨a, .plus⟩) o) (circState ψ₀ l ms) := by
  unfold circState
  rw [semInstrs_append, semInstrs_cons_M, zero_add, ← hlen, outcomeOf_last,
    semInstrs_congr _ (outcomeOf ms) l 0 ψ₀ (fun j _ h => outcomeOf_append (by omega))]
  rfl


/-! ### Gates keep the norm -/

theorem conjTranspose_mul_rot {P : Mat2} (hP : P.conjTranspose = P) (hPP : P * P = 1) (θ : ℝ) :
    (rot P θ).conjTranspose * rot P θ = 1 := by
  unfold rot
  have hcs : ((Real.cos (θ * Real.pi / 2) : ℂ)) ^ 2 + ((Real.sin (θ * Real.pi / 2) : ℂ)) ^ 2 = 1 := by
    have := Real.cos_sq_add_sin_sq (θ * Real.pi / 2)
    exact_mod_cast this
  generalize hc : ((Real.cos (θ * Real.pi / 2) : ℝ) : ℂ) = c at hcs ⊢
  generalize hs : ((Real.sin (θ * Real.pi / 2) : ℝ) : ℂ) = t at hcs ⊢
  have hc' : star c = c := by rw [← hc]; exact Complex.conj_ofReal _
  have hs' : star t = t := by rw [← hs]; exact Complex.conj_ofReal _
  have hI : star Complex.I = -Complex.I := Complex.conj_I
  rw [Matrix.conjTranspose_sub, Matrix.conjTranspose_smul, Matrix.conjTranspose_smul, Matrix.conjTranspose_one, hP, star_mul', hc', hs', hI]
  rw [Matrix.sub_mul, Matrix.mul_sub, Matrix.mul_sub]
  simp only [Matrix.smul_mul, Matrix.mul_smul, Matrix.one_mul, Matrix.mul_one, hPP, smul_smul]
  have hI2 : Complex.I * Complex.I = -1 := Complex.I_mul_I
  have e : c * c + (-Complex.I * t) * (Complex.I * t) = 1 := by linear_combination hcs - t * t * hI2
  linear_combination (norm := module) e • (1 : Mat2)

theorem opsY_unitary : Ops.Y.conjTranspose * Ops.Y = 1 := by
  rw [← Clifford.matrix_Y]; exact Clifford.matrix_unitary _

theorem opsS_unitary : Ops.S.conjTranspose * Ops.S = 1 := by
  rw [← Clifford.matrix_S]; exact Clifford.matrix_unitary _

theorem jGate_unitary (θ : ℝ) : (jGate θ).conjTranspose * jGate θ = 1 := by
  unfold jGate
  rw [Matrix.conjTranspose_mul, Matrix.mul_assoc, ← Matrix.mul_assoc _ Ops.H, H_unitary, Matrix.one_mul]
  have h : star (Complex.exp (Complex.I * (θ * Real.pi : ℝ))) * Complex.exp (Complex.I * (θ * Real.pi : ℝ)) = 1 := by
    rw [mul_comm, show Complex.exp (Complex.I * (θ * Real.pi : ℝ)) * star (Complex.exp (Complex.I * (θ * Real.pi : ℝ))) =
      ((Complex.normSq (Complex.exp (Complex.I * (θ * Real.pi : ℝ))) : ℝ) : ℂ) from Complex.mul_conj _, Complex.normSq_eq_norm_sq,
      mul_comm Complex.I, Complex.norm_exp_ofReal_mul_I]
    norm_num
  ext i j
  cases i <;> cases j <;> simp [Matrix.mul_apply, mat2, Matrix.conjTranspose_apply] <;> simpa using h

theorem rot_unitary {P : Mat2} (h : P = Ops.X ∨ P = Ops.Y ∨ P = Ops.Z) (θ : ℝ) : (rot P θ).conjTranspose * rot P θ = 1 := by
  have key : P.conjTranspose = P → P.conjTranspose * P = 1 → (rot P θ).conjTranspose * rot P θ = 1 := by
    intro h1 h2
    rw [h1] at h2
    exact conjTranspose_mul_rot h1 h2 θ
  rcases h with rfl | rfl | rfl
  · refine key ?_ opsX_unitary
    ext i j; cases i <;> cases j <;> simp [Ops.X, mat2, Matrix.conjTranspose_apply]
  · refine key ?_ opsY_unitary
    ext i j; cases i <;> cases j <;> simp [Ops.Y, mat2, Matrix.conjTranspose_apply]
  · refine key ?_ opsZ_unitary
    ext i j; cases i <;> cases j <;> simp [Ops.Z, mat2, Matrix.conjTranspose_apply]

theorem stateNormSq_of_kraus {l nodes : List ℕ} (hn : nodes.Nodup) (hl : ∀ n ∈ nodes, n ∈ l) {K : List Bool → List Bool → ℂ}
    (hc : KrausComplete nodes.length [(1, K)]) (ψ : QState) : stateNormSq l (opN K nodes ψ) = stateNormSq l ψ := by
  have h := kraus_trace hn hl hc (ketBra ψ)
  rw [krausN_single, conjBy_ketBra (Lin.opN K nodes).smul, traceOn_ketBra, traceOn_ketBra] at h
  exact_mod_cast h

theorem stateNormSq_op1 {l : List ℕ} {n : ℕ} (hl : n ∈ l) {U : Mat2} (hU : U.conjTranspose * U = 1) (ψ : QState) :
    stateNormSq l (op1 U n ψ) = stateNormSq l ψ := by
  rw [← opN_single]
  exact stateNormSq_of_kraus (nodes := [n]) (by simp) (by simpa using hl) (krausComplete_single hU) ψ

theorem stateNormSq_cz (l : List ℕ) (u v : ℕ) (ψ : QState) : stateNormSq l (cz u v ψ) = stateNormSq l ψ := by
  unfold stateNormSq cz
  refine Finset.sum_congr rfl (fun S _ => ?_)
  rw [Complex.normSq_mul]
  split <;> simp

theorem krausComplete_swap : KrausComplete 2 [(1, Ops.npSWAP.bits)] := by
  intro s hs t ht
  simp only [List.map_cons, List.map_nil, List.sum_cons, List.sum_nil, add_zero]
  rw [sum_allBits_two]
  rw [allBits_two] at hs ht
  simp only [Finset.mem_insert, Finset.mem_singleton] at hs ht
  rcases hs with rfl | rfl | rfl | rfl <;> rcases ht with rfl | rfl | rfl | rfl <;>
    simp [NpMat.bits, Ops.npSWAP, NpMat.ofRows, ofBits]

theorem stateNormSq_swap {l : List ℕ} {u v : ℕ} (huv : u ≠ v) (hu : u ∈ l) (hv : v ∈ l) (ψ : QState) :
    stateNormSq l (swapOp u v ψ) = stateNormSq l ψ := by
  rw [← opN_swap huv]
  exact stateNormSq_of_kraus (nodes := [u, v]) (by simp [huv]) (by simp [hu, hv]) krausComplete_swap ψ

/-- Gates that the methods of `Circuit` accept keep the norm. -/
theorem Instr.gate_norm {i : Instr} {s : Finset ℕ} (h : Circuit.instrOk s i = true) {l : List ℕ} (hl : ∀ n ∈ s, n ∈ l) (ψ : QState) :
    stateNormSq l (i.gate ψ) = stateNormSq l ψ := by
  cases i <;> simp only [Circuit.instrOk, decide_eq_true_eq] at h <;> simp only [Instr.gate]
  case CCX c0 c1 t => exact stateNormSq_ccx (hl _ h.2.2.1) h.2.2.2.2.1 h.2.2.2.2.2 ψ
  case RZZ c t θ => exact stateNormSq_rzz l c t θ ψ
  case CNOT c t => exact stateNormSq_cnot (hl _ h.2.1) h.2.2 ψ
  case SWAP u v => exact stateNormSq_swap h.2.2 (hl _ h.1) (hl _ h.2.1) ψ
  case CZ u v => exact stateNormSq_cz l u v ψ
  case H t => exact stateNormSq_op1 (hl _ h) H_unitary ψ
  case S t => exact stateNormSq_op1 (hl _ h) opsS_unitary ψ
  case X t => exact stateNormSq_op1 (hl _ h) opsX_unitary ψ
  case Y t => exact stateNormSq_op1 (hl _ h) opsY_unitary ψ
  case Z t => exact stateNormSq_op1 (hl _ h) opsZ_unitary ψ
  case RX t θ => exact stateNormSq_op1 (hl _ h) (rot_unitary (by simp) θ) ψ
  case RY t θ => exact stateNormSq_op1 (hl _ h) (rot_unitary (by simp) θ) ψ
  case RZ t θ => exact stateNormSq_op1 (hl _ h) (rot_unitary (by simp) θ) ψ
  case J t θ => exact stateNormSq_op1 (hl _ h) (jGate_unitary θ) ψ
  all_goals rfl

theorem IsDensity.of_norm {l : List ℕ} {F : QState → QState} (hF : Lin F) (h : ∀ ψ, stateNormSq l (F ψ) = stateNormSq l ψ)
    {ρ : QDens} (hρ : IsDensity l ρ) : IsDensity l (conjBy F ρ) := by
  refine ⟨hρ.mixture.conjBy hF, ?_⟩
  obtain ⟨⟨L, rfl⟩, ht⟩ := hρ
  rw [conjBy_mixture hF, traceOn_list_sum, ← ht, traceOn_list_sum, List.map_map, List.map_map, List.map_map]
  congr 1
  apply List.map_congr_left
  intro ψ _
  simp only [Function.comp, traceOn_ketBra, h]

/-! ### Gates on the state-vector backend -/

/-- `st` is a state of the simulator on the nodes `l`. -/
structure RegInv (l : List ℕ) (st : SimState) : Prop where
  idx : st.idx.Inv
  list : st.idx.list = l
  wf : st.sv.Wf
  nqubit : l.length = st.sv.nqubit
  norm : normSq st.sv.nqubit st.sv.psi = 1

theorem RegInv.nodup {l : List ℕ} {st : SimState} (h : RegInv l st) : l.Nodup := h.list ▸ h.idx.nodup

theorem RegInv.keep {l : List ℕ} {st : SimState} (h : RegInv l st) {sv' : Statevector} (h1 : sv'.nqubit = st.sv.nqubit)
    (h2 : sv'.maxQubits = st.sv.maxQubits) (h3 : stateNormSq l (absState l sv'.psi) = stateNormSq l (absState l st.sv.psi)) :
    RegInv l { st with sv := sv' } := by
  refine ⟨h.idx, h.list, ?_, ?_, ?_⟩
  · have := h.wf
    unfold Statevector.Wf at this ⊢
    simp only [h1, h2]; exact this
  · simp only [h1]; exact h.nqubit
  · rw [stateNormSq_abs l h.nodup, stateNormSq_abs l h.nodup, h.nqubit] at h3
    simp only [h1]; rw [h3]; exact h.norm

theorem RegInv.single {l : List ℕ} {st : SimState} (h : RegInv l st) {env : SimEnv} (henv : env.Ok []) (k : ℕ) {n : ℕ} (hn : n ∈ l)
    (U : Mat2) : ∃ sv', st.applySingle env k n U = .ok { st with sv := sv' } ∧ sv'.nqubit = st.sv.nqubit ∧
      sv'.maxQubits = st.sv.maxQubits ∧ absState l sv'.psi = op1 U n (absState l st.sv.psi) := by
  have hmem : n ∈ st.idx.list := by rw [h.list]; exact hn
  obtain ⟨sv', h1, h2, h3, h4, -⟩ := C41_evolve_single (env.ordOp k st.sv.nqubit (l.idxOf n))
    st.sv U l h.nodup h.nqubit _ n (List.getElem?_idxOf hn) (henv.op _ _ _)
  refine ⟨sv', ?_, h2, h3, h4⟩
  unfold SimState.applySingle
  rw [h.idx.index_ok hmem, h.list]
  simp only [bind, Except.bind, h1]
  rfl

theorem RegInv.evolve {l : List ℕ} {st : SimState} (h : RegInv l st) {nodes : List ℕ} (hn : ∀ n ∈ nodes, n ∈ l) (hnd : nodes.Nodup)
    (op : NpMat) (hsize : op.rows * op.cols = 2 ^ (2 * nodes.length)) :
    ∃ sv', st.evolveNodes op nodes = .ok { st with sv := sv' } ∧ sv'.nqubit = st.sv.nqubit ∧
      sv'.maxQubits = st.sv.maxQubits ∧ absState l sv'.psi = opN op.bits nodes (absState l st.sv.psi) := by
  have hmem : ∀ n ∈ nodes, n ∈ st.idx.list := by rw [h.list]; exact hn
  have hpos : (nodes.map (fun n => l.idxOf n)).map (fun q => l[q]?) = nodes.map some := by
    rw [List.map_map]
    exact List.map_congr_left (fun n hm => List.getElem?_idxOf (hn n hm))
  obtain ⟨sv', h1, h2, h3, h4⟩ := evolve_abs h.nodup h.nqubit op hsize hpos hnd
  refine ⟨sv', ?_, h2, h3, h4⟩
  unfold SimState.evolveNodes
  simp only [indices_ok h.idx nodes hmem, h.list, bind, Except.bind, h1]
  rfl

theorem npRzz_rows (θ : ℝ) : (Ops.npRzz θ).rows = 4 := rfl
theorem npRzz_cols (θ : ℝ) : (Ops.npRzz θ).cols = 4 := rfl

/-- A gate accepted by the methods of `Circuit`, on the state-vector backend. -/
theorem RegInv.gate {l : List ℕ} {st : SimState} (h : RegInv l st) {env : SimEnv} (henv : env.Ok []) (k : ℕ) (ms : List Bool) {i : Instr}
    (hg : i.isGate) {s : Finset ℕ} (hok : Circuit.instrOk s i = true) (hs : ∀ n ∈ s, n ∈ l) :
    ∃ sv', circStep env k (st, ms) i = .ok ({ st with sv := sv' }, ms) ∧ RegInv l { st with sv := sv' } ∧
      absState l sv'.psi = i.gate (absState l st.sv.psi) := by
  suffices hh : ∃ sv', circStep env k (st, ms) i = .ok ({ st with sv := sv' }, ms) ∧ sv'.nqubit = st.sv.nqubit ∧
      sv'.maxQubits = st.sv.maxQubits ∧ absState l sv'.psi = i.gate (absState l st.sv.psi) by
    obtain ⟨sv', h1, h2, h3, h4⟩ := hh
    exact ⟨sv', h1, h.keep h2 h3 (by rw [h4]; exact Instr.gate_norm hok hs _), h4⟩
  have one : ∀ (U : Mat2) (t : ℕ), t ∈ s → circStep env k (st, ms) i = (do let st ← st.applySingle env k t U; return (st, ms)) →
      i.gate = op1 U t → ∃ sv', circStep env k (st, ms) i = .ok ({ st with sv := sv' }, ms) ∧ sv'.nqubit = st.sv.nqubit ∧
      sv'.maxQubits = st.sv.maxQubits ∧ absState l sv'.psi = i.gate (absState l st.sv.psi) := by
    intro U t ht h1 h2
    obtain ⟨sv', e1, e2, e3, e4⟩ := h.single henv k (hs t ht) U
    exact ⟨sv', by rw [h1, e1]; rfl, e2, e3, by rw [e4, h2]⟩
  have many : ∀ (op : NpMat) (nodes : List ℕ), (∀ n ∈ nodes, n ∈ s) → nodes.Nodup → op.rows * op.cols = 2 ^ (2 * nodes.length) →
      circStep env k (st, ms) i = (do let st ← st.evolveNodes op nodes; return (st, ms)) →
      i.gate = opN op.bits nodes → ∃ sv', circStep env k (st, ms) i = .ok ({ st with sv := sv' }, ms) ∧ sv'.nqubit = st.sv.nqubit ∧
      sv'.maxQubits = st.sv.maxQubits ∧ absState l sv'.psi = i.gate (absState l st.sv.psi) := by
    intro op nodes hn hnd hsize h1 h2
    obtain ⟨sv', e1, e2, e3, e4⟩ := h.evolve (fun n hm => hs n (hn n hm)) hnd op hsize
    exact ⟨sv', by rw [h1, e1]; rfl, e2, e3, by rw [e4, h2]⟩
  cases i <;> simp only [Circuit.instrOk, decide_eq_true_eq] at hok
  case CCX c0 c1 t =>
    obtain ⟨a, b, c, d, e, f⟩ := hok
    exact many Ops.npCCX [c0, c1, t] (by simp [a, b, c]) (by simp [d, e, f]) (by simp [Ops.npCCX, NpMat.ofRows])
      (by simp only [circStep]) (by simp only [Instr.gate]; exact (opN_ccx d e f).symm)
  case RZZ c t θ =>
    by_cases hct : c = t
    · subst hct
      have hc := hs c hok.1
      obtain ⟨sv', e1, e2, e3, e4⟩ := evolve_rzz_self h.nodup h.nqubit θ (List.getElem?_idxOf hc)
      refine ⟨sv', ?_, e2, e3, e4⟩
      have hmem : c ∈ st.idx.list := by rw [h.list]; exact hc
      simp only [circStep, SimState.evolveNodes, indices_ok h.idx [c, c] (by simp [hmem]), h.list, bind, Except.bind, List.map_cons,
        List.map_nil, e1]
      rfl
    · exact many (Ops.npRzz θ) [c, t] (by simp [hok]) (by simp [hct]) (by simp [npRzz_rows, npRzz_cols])
        (by simp only [circStep]) (by simp only [Instr.gate]; exact (opN_rzz hct θ).symm)
  case CNOT c t =>
    exact many Ops.npCNOT [c, t] (by simp [hok]) (by simp [hok]) (by simp [Ops.npCNOT, NpMat.ofRows])
      (by simp only [circStep]) (by simp only [Instr.gate]; exact (opN_cnot hok.2.2).symm)
  case SWAP u v =>
    have hu := hs u hok.1
    have hv := hs v hok.2.1
    obtain ⟨e1, e2⟩ := C41_swap st.sv l h.nodup h.nqubit _ _ u v (List.getElem?_idxOf hu) (List.getElem?_idxOf hv)
    refine ⟨st.sv.swap (l.idxOf u) (l.idxOf v), ?_, rfl, rfl, e2⟩
    have hu' : u ∈ st.idx.list := by rw [h.list]; exact hu
    have hv' : v ∈ st.idx.list := by rw [h.list]; exact hv
    simp only [circStep, SimState.swapNodes, h.idx.index_ok hu', h.idx.index_ok hv', h.list, bind, Except.bind]
    rfl
  case CZ u v =>
    have hu := hs u hok.1
    have hv := hs v hok.2.1
    obtain ⟨sv', e1, e2, e3, e4, -⟩ := C41_entangle (env.ordCz k st.sv.nqubit) st.sv l h.nqubit _ _ u v
      (List.getElem?_idxOf hu) (List.getElem?_idxOf hv) (henv.cz _ _)
    refine ⟨sv', ?_, e2, e3, e4⟩
    have hu' : u ∈ st.idx.list := by rw [h.list]; exact hu
    have hv' : v ∈ st.idx.list := by rw [h.list]; exact hv
    simp only [circStep, SimState.entangleNodes, h.idx.index_ok hu', h.idx.index_ok hv', h.list, bind, Except.bind, e1]
    rfl
  case I t => exact ⟨st.sv, rfl, rfl, rfl, rfl⟩
  case M t a => exact hg.elim
  case H t => exact one Ops.H t hok rfl rfl
  case S t => exact one Ops.S t hok rfl rfl
  case X t => exact one Ops.X t hok rfl rfl
  case Y t => exact one Ops.Y t hok rfl rfl
  case Z t => exact one Ops.Z t hok rfl rfl
  case RX t θ => exact one (Ops.rx θ) t hok rfl (by rw [Ops_rx_eq]; rfl)
  case RY t θ => exact one (Ops.ry θ) t hok rfl (by rw [Ops_ry_eq]; rfl)
  case RZ t θ => exact one (Ops.rz θ) t hok rfl (by rw [Ops_rz_eq]; rfl)
  case J t θ => exact one (Ops.j θ) t hok rfl (by rw [Ops_j_eq]; rfl)

/-! ### Measurements on the state-vector backend -/

/-- What a measurement of a node does on the state-vector backend. -/
theorem RegInv.measure {l : List ℕ} {st : SimState} (h : RegInv l st) {env : SimEnv} (henv : env.Ok []) (k : ℕ) {n : ℕ} (hn : n ∈ l)
    (m : Measurement) : ∃ P : Bool → ℝ, (∀ o, 0 ≤ P o) ∧ P false + P true = 1 ∧
      (∀ o, stateNormSq (l.erase n) (projOut n (measVec m o) (absState l st.sv.psi)) = P o) ∧
      ((∃ e, env.sel st.results n (P false) = .error e ∧ st.measureNode env k n m = .error e) ∨
       ∃ o, env.sel st.results n (P false) = .ok o ∧
        ((st.measureNode env k n m = .error .runtimeError ∧ P o ≤ 2 * atol) ∨
          ∃ (sv' : Statevector) (idx' : NodeIndex) (c : ℂ), st.measureNode env k n m = .ok (⟨sv', idx', st.results⟩, o) ∧
            RegInv (l.erase n) ⟨sv', idx', st.results⟩ ∧ c ≠ 0 ∧ 0 < P o ∧
            absState (l.erase n) sv'.psi = c • projOut n (measVec m o) (absState l st.sv.psi))) := by
  have hmem : n ∈ st.idx.list := by rw [h.list]; exact hn
  have hidx : st.idx.index n = .ok (l.idxOf n) := by rw [h.idx.index_ok hmem, h.list]
  obtain ⟨l1, l2, hl, hq⟩ := split_of_getElem? (List.getElem?_idxOf hn)
  have hnd := h.nodup
  have hlen := h.nqubit
  rw [hl] at hnd hlen
  have hqlt : l1.length < st.sv.nqubit := by rw [← hlen]; simp
  have hn1 : n ∉ l1 := fun hc => (List.nodup_append.1 hnd).2.2 n hc n (by simp) rfl
  have herase : l.erase n = l1 ++ l2 := by
    rw [hl, List.erase_append_right _ hn1]; simp
  have hnd' : (l1 ++ l2).Nodup := hnd.sublist (by simp)
  set P : Bool → ℝ := fun o => projProb st.sv.psi (measVec m o) st.sv.nqubit l1.length with hP
  have hsum : P false + P true = 1 := by
    rw [hP]; simp only []
    rw [projProb_complete _ hqlt, h.norm]
    rw [outer_measVec, outer_measVec]
    exact (C42_projective m).2.2.2.1
  have hP0 : ∀ o, 0 ≤ P o := fun o => projProb_nonneg _ _ _ _
  have hPs : ∀ o, stateNormSq (l.erase n) (projOut n (measVec m o) (absState l st.sv.psi)) = P o := by
    intro o
    rw [herase, hl, ← abs_proj hnd, stateNormSq_abs _ hnd', hP]
    simp only []
    unfold projProb
    rw [hlen, show (l1 ++ l2).length = st.sv.nqubit - 1 by rw [← hlen]; simp]
  refine ⟨P, hP0, hsum, hPs, ?_⟩
  have hexp : st.sv.expectationSingle (env.ordExp k st.sv.nqubit l1.length) (measureOperator m false) l1.length
      = .ok ((P false : ℝ) : ℂ) := by
    rw [← outer_measVec]
    exact C41_expectation _ _ _ _ hqlt (henv.exp _ _ _)
  have hmeas : ∀ x, st.measureNode env k n m = x ↔ (do
      let outcome ← env.sel st.results n (P false)
      let sv ← st.sv.projectQubit (env.ordProj k st.sv.nqubit l1.length) (measureOperator m outcome) l1.length
      let idx ← st.idx.remove n
      return ({ st with sv := sv, idx := idx }, outcome)) = x := by
    intro x
    unfold SimState.measureNode
    rw [hidx]
    simp only [bind, Except.bind, ← hq, hexp, Complex.ofReal_im, Complex.ofReal_re, ne_eq, not_true_eq_false,
      if_false, pure, Except.pure]
  cases hsel : env.sel st.results n (P false) with
  | error e =>
    left
    exact ⟨e, rfl, by rw [hmeas, hsel]; rfl⟩
  | ok o =>
    right
    refine ⟨o, rfl, ?_⟩
    have hproj := C41_project (env.ordProj k st.sv.nqubit l1.length) st.sv (measVec m o) (measVec_unit m o)
      l1 l2 n hnd hlen (henv.proj _ _ _)
    rw [outer_measVec] at hproj
    rcases hproj with ⟨h1, h2⟩ | ⟨sv', c', h1, hc', hnq, hmq, habs, hnorm⟩
    · left
      exact ⟨by rw [hmeas, hsel]; simp only [bind, Except.bind, h1], h2⟩
    · right
      obtain ⟨idx', hi1, hi2, hi3⟩ := h.idx.remove hmem
      rw [h.list, herase] at hi3
      have hlen' : (l1 ++ l2).length = sv'.nqubit := by rw [hnq, ← hlen]; simp
      refine ⟨sv', idx', c', ?_, ⟨hi2, by rw [hi3, herase], ?_, by rw [herase]; exact hlen', hnorm⟩, hc', ?_, ?_⟩
      · rw [hmeas, hsel]; simp only [bind, Except.bind, h1, hi1]; rfl
      · have := h.wf
        unfold Statevector.Wf at this ⊢
        simp only [hnq, hmq]; omega
      · have h6 : stateNormSq (l1 ++ l2) (absState (l1 ++ l2) sv'.psi) = 1 := by
          rw [stateNormSq_abs _ hnd', hlen', hnorm]
        rw [habs, stateNormSq_smul, ← herase, ← hl, hPs] at h6
        rcases (hP0 o).lt_or_eq with hp | hp
        · exact hp
        · rw [← hp] at h6; simp at h6
      · rw [herase, habs, hl]

end Graphix
