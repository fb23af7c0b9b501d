import Verif.Proofs.CircRun

/-! # Runs of circuits on the density-matrix backend: the steps -/

namespace Graphix

/-- `st` is a state of the density-matrix simulator on the nodes `l`. -/
structure DRegInv (l : List ℕ) (st : DMState) : Prop where
  idx : st.idx.Inv
  list : st.idx.list = l
  shape : st.dm.Shape l.length
  dens : IsDensity l (absDens l st.dm.rho)

theorem DRegInv.nodup {l : List ℕ} {st : DMState} (h : DRegInv l st) : l.Nodup := h.list ▸ h.idx.nodup

theorem DRegInv.single {l : List ℕ} {st : DMState} (h : DRegInv l st) {n : ℕ} (hn : n ∈ l) (U : Mat2) :
    ∃ dm', st.applySingle n U = .ok { st with dm := dm' } ∧ dm'.Shape l.length ∧
      absDens l dm'.rho = conjBy (op1 U n) (absDens l st.dm.rho) := by
  have hmem : n ∈ st.idx.list := by rw [h.list]; exact hn
  obtain ⟨dm', h1, h2, h3⟩ := C56_evolve_single st.dm l h.nodup h.shape U _ n (List.getElem?_idxOf hn)
  refine ⟨dm', ?_, h2, h3⟩
  unfold DMState.applySingle
  rw [h.idx.index_ok hmem, h.list]
  simp only [bind, Except.bind, h1]
  rfl

theorem DRegInv.evolve {l : List ℕ} {st : DMState} (h : DRegInv l st) {nodes : List ℕ} (hn : ∀ n ∈ nodes, n ∈ l) (hnd : nodes.Nodup)
    (op : NpMat) (hr : op.rows = 2 ^ nodes.length) (hc : op.cols = 2 ^ nodes.length) :
    ∃ dm', st.evolveNodes op nodes = .ok { st with dm := dm' } ∧ dm'.Shape l.length ∧
      absDens l dm'.rho = conjBy (opN op.bits nodes) (absDens l st.dm.rho) := by
  have hmem : ∀ n ∈ nodes, n ∈ st.idx.list := by rw [h.list]; exact hn
  have hpos : (nodes.map (fun n => l.idxOf n)).map (fun q => l[q]?) = nodes.map some := by
    rw [List.map_map]
    exact List.map_congr_left (fun n hm => List.getElem?_idxOf (hn n hm))
  obtain ⟨dm', h1, h2, h3⟩ := C56_evolve st.dm l h.nodup h.shape op _ nodes hr hc hpos hnd
  refine ⟨dm', ?_, h2, h3⟩
  unfold DMState.evolveNodes
  simp only [indices_ok h.idx nodes hmem, h.list, bind, Except.bind, h1]
  rfl

/-- A gate accepted by the methods of `Circuit`, on the density-matrix backend. -/
theorem DRegInv.gate {l : List ℕ} {st : DMState} (h : DRegInv l st) (env : DMEnv) (ms : List Bool) {i : Instr}
    (hg : i.isGate) (hp : i.Proper) {s : Finset ℕ} (hok : Circuit.instrOk s i = true) (hs : ∀ n ∈ s, n ∈ l) :
    ∃ dm', circStepDM env (st, ms) i = .ok ({ st with dm := dm' }, ms) ∧ DRegInv l { st with dm := dm' } ∧
      absDens l dm'.rho = conjBy i.gate (absDens l st.dm.rho) := by
  suffices hh : ∃ dm', circStepDM env (st, ms) i = .ok ({ st with dm := dm' }, ms) ∧ dm'.Shape l.length ∧
      absDens l dm'.rho = conjBy i.gate (absDens l st.dm.rho) by
    obtain ⟨dm', h1, h2, h3⟩ := hh
    refine ⟨dm', h1, ⟨h.idx, h.list, h2, ?_⟩, h3⟩
    show IsDensity l (absDens l dm'.rho)
    rw [h3]
    exact h.dens.of_norm i.gate_lin (Instr.gate_norm hok hs)
  have one : ∀ (U : Mat2) (t : ℕ), t ∈ s → circStepDM env (st, ms) i = (do let st ← st.applySingle t U; return (st, ms)) →
      i.gate = op1 U t → ∃ dm', circStepDM env (st, ms) i = .ok ({ st with dm := dm' }, ms) ∧ dm'.Shape l.length ∧
      absDens l dm'.rho = conjBy i.gate (absDens l st.dm.rho) := by
    intro U t ht h1 h2
    obtain ⟨dm', e1, e2, e3⟩ := h.single (hs t ht) U
    exact ⟨dm', by rw [h1, e1]; rfl, e2, by rw [e3, h2]⟩
  have many : ∀ (op : NpMat) (nodes : List ℕ), (∀ n ∈ nodes, n ∈ s) → nodes.Nodup → op.rows = 2 ^ nodes.length →
      op.cols = 2 ^ nodes.length →
      circStepDM env (st, ms) i = (do let st ← st.evolveNodes op nodes; return (st, ms)) →
      i.gate = opN op.bits nodes → ∃ dm', circStepDM env (st, ms) i = .ok ({ st with dm := dm' }, ms) ∧ dm'.Shape l.length ∧
      absDens l dm'.rho = conjBy i.gate (absDens l st.dm.rho) := by
    intro op nodes hn hnd hr hc h1 h2
    obtain ⟨dm', e1, e2, e3⟩ := h.evolve (fun n hm => hs n (hn n hm)) hnd op hr hc
    exact ⟨dm', by rw [h1, e1]; rfl, e2, by rw [e3, h2]⟩
  cases i <;> simp only [Circuit.instrOk, decide_eq_true_eq] at hok
  case CCX c0 c1 t =>
    obtain ⟨a, b, c, d, e, f⟩ := hok
    exact many Ops.npCCX [c0, c1, t] (by simp [a, b, c]) (by simp [d, e, f]) (by simp [Ops.npCCX, NpMat.ofRows])
      (by simp [Ops.npCCX, NpMat.ofRows]) (by simp only [circStepDM]) (by simp only [Instr.gate]; exact (opN_ccx d e f).symm)
  case RZZ c t θ =>
    have hct : c ≠ t := hp
    exact many (Ops.npRzz θ) [c, t] (by simp [hok]) (by simp [hct]) (by simp [npRzz_rows]) (by simp [npRzz_cols])
        (by simp only [circStepDM]) (by simp only [Instr.gate]; exact (opN_rzz hct θ).symm)
  case CNOT c t =>
    exact many Ops.npCNOT [c, t] (by simp [hok]) (by simp [hok]) (by simp [Ops.npCNOT, NpMat.ofRows])
      (by simp [Ops.npCNOT, NpMat.ofRows])
      (by simp only [circStepDM]) (by simp only [Instr.gate]; exact (opN_cnot hok.2.2).symm)
  case SWAP u v =>
    have hu := hs u hok.1
    have hv := hs v hok.2.1
    obtain ⟨-, -, dm', e1, e2, e3⟩ := C56_two_qubit st.dm l h.nodup h.shape _ _ u v (List.getElem?_idxOf hu) (List.getElem?_idxOf hv) hok.2.2
    refine ⟨dm', ?_, e2, e3⟩
    have hu' : u ∈ st.idx.list := by rw [h.list]; exact hu
    have hv' : v ∈ st.idx.list := by rw [h.list]; exact hv
    simp only [circStepDM, DMState.swapNodes, h.idx.index_ok hu', h.idx.index_ok hv', h.list, bind, Except.bind, e1]
    rfl
  case CZ u v =>
    have hu := hs u hok.1
    have hv := hs v hok.2.1
    obtain ⟨⟨dm', e1, e2, e3⟩, -⟩ := C56_two_qubit st.dm l h.nodup h.shape _ _ u v (List.getElem?_idxOf hu) (List.getElem?_idxOf hv) hok.2.2
    refine ⟨dm', ?_, e2, e3⟩
    have hu' : u ∈ st.idx.list := by rw [h.list]; exact hu
    have hv' : v ∈ st.idx.list := by rw [h.list]; exact hv
    simp only [circStepDM, DMState.entangleNodes, h.idx.index_ok hu', h.idx.index_ok hv', h.list, bind, Except.bind, e1]
    rfl
  case I t => exact ⟨st.dm, rfl, h.shape, (conjBy_self _).symm⟩
  case M t a => exact hg.elim
  case H t => exact one Ops.H t hok rfl rfl
  case S t => exact one Ops.S t hok rfl rfl
  case X t => exact one Ops.X t hok rfl rfl
  case Y t => exact one Ops.Y t hok rfl rfl
  case Z t => exact one Ops.Z t hok rfl rfl
  case RX t θ => exact one (Ops.rx θ) t hok rfl (by rw [Ops_rx_eq]; rfl)
  case RY t θ => exact one (Ops.ry θ) t hok rfl (by rw [Ops_ry_eq]; rfl)
  case RZ t θ => exact one (Ops.rz θ) t hok rfl (by rw [Ops_rz_eq]; rfl)
  case J t θ => exact one (Ops.j θ) t hok rfl (by rw [Ops_j_eq]; rfl)

/-- What a measurement of a node does on the density-matrix backend. -/
theorem DRegInv.measure {l : List ℕ} {st : DMState} (h : DRegInv l st) (env : DMEnv) {n : ℕ} (hn : n ∈ l)
    (m : Measurement) : ∃ P : Bool → ℝ, (∀ o, 0 ≤ P o) ∧ P false + P true = 1 ∧
      (∀ o, traceOn (l.erase n) (conjBy (projOut n (measVec m o)) (absDens l st.dm.rho)) = P o) ∧
      ((∃ e, env.sel st.results n (P false) = .error e ∧ st.measureNode env n m = .error e) ∨
       ∃ o, env.sel st.results n (P false) = .ok o ∧
        ((st.measureNode env n m = .error .zeroDivisionError ∧ P o = 0) ∨
          ∃ (dm' : DensityMatrix) (idx' : NodeIndex), st.measureNode env n m = .ok (⟨dm', idx', st.results, st.draws⟩, o) ∧
            DRegInv (l.erase n) ⟨dm', idx', st.results, st.draws⟩ ∧ 0 < P o ∧
            absDens (l.erase n) dm'.rho = ((P o)⁻¹ : ℂ) • conjBy (projOut n (measVec m o)) (absDens l st.dm.rho))) := by
  have hmem : n ∈ st.idx.list := by rw [h.list]; exact hn
  have hidx : st.idx.index n = .ok (l.idxOf n) := by rw [h.idx.index_ok hmem, h.list]
  have hpos : l[l.idxOf n]? = some n := List.getElem?_idxOf hn
  have hnd := h.nodup
  rw [erase_eq_filter hnd]
  set l' := l.filter (· ∉ [n]) with hl'
  set ρ := absDens l st.dm.rho with hρ
  have htr : traceOn l ρ = 1 := h.dens.trace
  have hmix : ∀ o, IsMixture (conjBy (projOut n (measVec m o)) ρ) := fun o => h.dens.mixture.conjBy (Lin.projOut _ _)
  choose P hP0 hP using fun o => (hmix o).trace_nonneg l'
  have hsum : P false + P true = 1 := by
    have := traceOn_projOut_sum hn (outer_measVec_sum m) ρ
    rw [← hl', hP, hP, htr] at this
    exact_mod_cast this
  refine ⟨P, hP0, hsum, hP, ?_⟩
  obtain ⟨dm1, x1, x2, x3⟩ := C56_expectation st.dm l hnd h.shape (by rw [← hρ, htr]; exact one_ne_zero)
    (measureOperator m false) _ n hpos
  rw [← hρ, htr, inv_one, one_smul] at x3
  rw [← hρ, htr, div_one, ← outer_measVec, traceOn_leftBy_outer hn, ← hl', hP, outer_measVec] at x1
  have hmeas : ∀ x, st.measureNode env n m = x ↔ (do
      let outcome ← env.sel st.results n (P false)
      let dm ← dm1.projectQubit (.ofMat2 (measureOperator m outcome)) (l.idxOf n)
      let idx ← st.idx.remove n
      return ({ st with dm := dm, idx := idx }, outcome)) = x := by
    intro x
    unfold DMState.measureNode
    rw [hidx]
    simp only [bind, Except.bind, x1, Complex.ofReal_im, Complex.ofReal_re, ne_eq, not_true_eq_false,
      if_false, pure, Except.pure]
  cases hsel : env.sel st.results n (P false) with
  | error e =>
    left
    exact ⟨e, rfl, by rw [hmeas, hsel]; rfl⟩
  | ok o =>
    right
    refine ⟨o, rfl, ?_⟩
    obtain ⟨y1, y2⟩ := C56_project dm1 l hnd x2 (by rw [x3]; exact h.dens.mixture) (measVec m o) (measVec_unit m o) _ n hpos
    rw [x3, ← hl', hP, outer_measVec] at y1 y2
    rcases (hP0 o).lt_or_eq with hpos' | hzero
    · right
      obtain ⟨dm2, z1, z2, z3, z4⟩ := y2 (by exact_mod_cast hpos'.ne')
      obtain ⟨idx', hi1, hi2, hi3⟩ := h.idx.remove hmem
      rw [h.list, erase_eq_filter hnd, ← hl'] at hi3
      refine ⟨dm2, idx', ?_, ⟨hi2, hi3, z2, z4⟩, hpos', z3⟩
      rw [hmeas, hsel]; simp only [bind, Except.bind, z1, hi1]; rfl
    · left
      refine ⟨?_, hzero.symm⟩
      have h1 := y1 (by rw [← hzero]; simp)
      rw [hmeas, hsel]; simp only [bind, Except.bind, h1]

end Graphix
