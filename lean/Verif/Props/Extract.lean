import Verif.Proofs.ExtractEnd
import Verif.Spec.Wires
import Verif.Props.FlowCheck
import Verif.Props.FindGpflow
import Verif.Props.Determinism

/-!
# C52: circuit extraction

`PauliFlow.extract_circuit` on a focused Pauli flow, then `ExtractionResult.to_circuit`. The circuit acts on the qubits
`0, …, n - 1`; the qubit `k` enters as the `k`-th input node and leaves as the `k`-th output node (`onWires`).
-/

namespace Graphix

open Function Extract

/-- The `k`-th input has a Pauli measurement with a negative sign. -/
def NegativeInput (og : OpenGraph) (k : ℕ) : Prop := ∃ i a, og.inputs[k]? = some i ∧ og.measurements.get? i = some (.pauli ⟨a, .minus⟩)

/-- The extraction and the compilation succeed, and the circuit implements the map of the open graph, up to a nonzero scalar. -/
def ExtractsTo (f : Flow) (ord ord' : SetOrd) (mmo : MulOrd) : Prop :=
  ∃ er c, f.extractCircuit ord mmo = .ok er ∧ erToCircuit er ord' = .ok c ∧ c.width = f.og.outputs.length ∧ (∀ i ∈ c.instrs, i.isGate) ∧
    ∃ a : ℂ, a ≠ 0 ∧ ∀ ψ, OnNodes (List.range f.og.inputs.length) ψ →
      f.og.linMap (onWires f.og.inputs ψ) = a • onWires f.og.outputs (gates c.instrs ψ)

theorem negIn_iff (og : OpenGraph) (k : ℕ) : negIn og k = true ↔ NegativeInput og k := by
  unfold negIn NegativeInput
  cases h : og.inputs[k]? with
  | none => simp
  | some i =>
    simp only [Option.elim_some, Option.some.injEq, exists_and_left]
    unfold isMinus
    cases h' : og.measurements.get? i with
    | none => simp [h']
    | some m =>
      cases m with
      | bloch m => simp [h']
      | pauli m => obtain ⟨a, s⟩ := m; simp [h']

theorem flipWires_flipWires (p : ℕ → Bool) (ψ : QState) : flipWires p (flipWires p ψ) = ψ := by
  funext b
  unfold flipWires
  congr 1
  funext k
  simp

theorem flipWires_X (p : ℕ → Bool) (k : ℕ) (ψ : QState) : flipWires p (op1 Ops.X k ψ) = op1 Ops.X k (flipWires p ψ) := by
  have hX : ∀ (φ : QState) b, op1 Ops.X k φ b = φ (update b k (!b k)) := by
    intro φ b
    unfold op1
    cases h : b k <;> simp [Ops.X]
  funext b
  rw [hX]
  unfold flipWires
  rw [hX]
  congr 1
  funext j
  by_cases h : j = k
  · subst h; simp
  · simp [h]

theorem flipWires_Z (p : ℕ → Bool) (k : ℕ) (ψ : QState) : flipWires p (op1 Ops.Z k ψ) = sgn (p k) • op1 Ops.Z k (flipWires p ψ) := by
  funext b
  rw [Pi.smul_apply, op1_Z_apply]
  unfold flipWires
  rw [op1_Z_apply, sgn_xor, smul_eq_mul]
  ring

theorem flipWires_onNodes (p : ℕ → Bool) {n : ℕ} {ψ : QState} (h : OnNodes (List.range n) ψ) : OnNodes (List.range n) (flipWires p ψ) :=
  fun b b' hb => h _ _ fun k hk => by rw [hb k hk]

/-- What is extracted from a focused Pauli flow, in terms of the map at angle 0. -/
theorem extract_main (f : Flow) (hv : f.og.Valid) (hloop : ∀ v, (v, v) ∉ f.og.edges) (hcl : f.og.cliffords = [])
    (hk : f.corr.keys.Nodup) (hf : IsPauliFlow f) (hfoc : f.Focused) (hlen : f.og.inputs.length = f.og.outputs.length) (hpos : f.og.outputs ≠ [])
    (ord ord' : SetOrd) (ho : ord.Valid) (ho' : ord'.Valid) (mmo : MulOrd) (hmmo : mmo.Valid) :
    ∃ er c, f.extractCircuit ord mmo = .ok er ∧ erToCircuit er ord' = .ok c ∧ c.width = f.og.outputs.length ∧ (∀ i ∈ c.instrs, i.isGate) ∧
      (∃ a : ℂ, a ≠ 0 ∧ ∀ ψ, OnNodes (List.range f.og.inputs.length) ψ →
        f.og.linMap (onWires f.og.inputs (flipWires (negIn f.og) ψ)) = a • onWires f.og.outputs (gates c.instrs ψ)) ∧
      ∀ i ∈ c.instrs, Circuit.instrOk (Finset.range f.og.outputs.length) i = true := by
  have hloop' : ∀ e ∈ f.og.edges, e.1 ≠ e.2 := fun e he hh => hloop e.1 (by rw [show (e.1, e.1) = e from Prod.ext rfl hh]; exact he)
  have hne : f.og.nodes ≠ ∅ := by
    intro h
    obtain ⟨x, hx⟩ := List.exists_mem_of_ne_nil _ hpos
    have := (f.og.postInit_ok hv.post).2.2.1 (show x ∈ f.og.outputs.toFinset by simpa using hx)
    rw [h] at this; simp at this
  obtain ⟨D, d1, d2, d3⟩ := dagOf_spec hf hfoc hk hv hloop ho
  obtain ⟨zs, z1, z2, z3⟩ := zMapOf_spec hf hfoc hk hv hloop ho
  obtain ⟨xs, x1, x2, x3⟩ := xMapOf_spec hf hv hloop hne ho hmmo
  set n := f.og.outputs.length with hn
  have hnpos : 0 < n := List.length_pos_iff.2 hpos
  set d : PauliExponentialDAG := ⟨D, f.layers, f.og.outputs⟩ with hd
  set cm : CliffordMap := ⟨xs, zs, f.og.inputs, f.og.outputs⟩ with hcm
  have hN := mem_nodeOrder hf hv hpos ho' d rfl
  have hkeys : ∀ u ∈ Pexp.nodeOrder d ord', u ∈ f.corr.keys := by
    intro u hu
    rw [← PyDict.get?_isSome_iff, Option.isSome_iff_exists]
    exact (hf.domain u).2 ((hN u).1 hu)
  have hE := wMap_order hf hfoc hv hloop' hpos ho' d rfl (fun u => (D.get? u).getD ⟨0, ⟨0, [], .plus⟩⟩) (fun u hu => by
    obtain ⟨e, e1, S, m, e2, e3, e4, e5⟩ := d3 u (hkeys u hu)
    rw [e1]
    exact ⟨S, m, e2, e3, e4, e5⟩) (Pexp.nodeOrder d ord') [] (by simp)
  have hW := wMap_ne hf hk hv hloop ho hcl hN hE
  set V : QState → QState := fun ψ => wMap f.og [] (flipWires (negIn f.og) ψ) with hV
  have hVx : ∀ k p, xs[k]? = some p → p.Valid ∧ p.dim = n ∧ ∀ ψ, V (op1 Ops.X k ψ) = p.op (V ψ) := fun k p hp => by
    obtain ⟨h1, h2, h3⟩ := x3 k p hp
    refine ⟨h1, h2, fun ψ => ?_⟩
    simp only [hV]
    rw [flipWires_X, h3]
  have hVz : ∀ k p, zs[k]? = some p → p.Valid ∧ p.dim = n ∧ ∀ ψ, V (op1 Ops.Z k ψ) = p.op (V ψ) := fun k p hp => by
    obtain ⟨h1, h2, h3⟩ := z3 k p hp
    refine ⟨h1, h2, fun ψ => ?_⟩
    simp only [hV]
    rw [flipWires_Z, wMap_homog, h3, smul_smul, ← sgn_xor, Bool.xor_self, sgn_false, one_smul]
  have hVh : Homog V := fun c ψ => wMap_homog _ _ c (flipWires (negIn f.og) ψ)
  have hVa : ∀ ψ φ, V (ψ + φ) = V ψ + V φ := fun ψ φ => wMap_add _ _ (flipWires (negIn f.og) ψ) (flipWires (negIn f.og) φ)
  have hV1 : V (fun _ => 1) ≠ 0 := hW
  have hvalid : cm.Valid n := cliffordMap_valid hV1 hVh hlen rfl (by rw [← hlen]; exact x2) (by rw [← hlen]; exact z2) hVx hVz
  obtain ⟨c, l1, c1, c2, c3, c4, c5, c6, b, hb, c7⟩ := Pexp.er_to_circuit_gates ⟨d, cm⟩ ord' n hnpos hvalid rfl fun u hu => by
    obtain ⟨e, e1, S, m, e2, e3, e4, e5⟩ := d3 u (hkeys u hu)
    exact ⟨e, e1, e4.valid, e4.dim⟩
  have hgetx : ∀ q < n, ∃ p, xs[q]? = some p := fun q hq => ⟨xs[q]'(by rw [x2, hlen]; exact hq), List.getElem?_eq_getElem _⟩
  have hgetz : ∀ q < n, ∃ p, zs[q]? = some p := fun q hq => ⟨zs[q]'(by rw [z2, hlen]; exact hq), List.getElem?_eq_getElem _⟩
  obtain ⟨a, ha⟩ := unique_of_gen (n := n) (U := gates l1) (W := V) (gates_bij l1 fun i hi => (c4 i hi).2) (Pexp.gates_homog l1) (gates_add l1)
    hVh hVa (fun ψ _ => wMap_onNodes hv [] _)
    (P := fun q => ((xs[q]?).getD ⟨0, [], .plus⟩).op) (Q := fun q => ((zs[q]?).getD ⟨0, [], .plus⟩).op)
    (fun q hq ψ => by obtain ⟨p, hp⟩ := hgetx q hq; rw [hp]; exact c5 q p hp ψ)
    (fun q hq ψ => by obtain ⟨p, hp⟩ := hgetz q hq; rw [hp]; exact c6 q p hp ψ)
    (fun q hq ψ => by obtain ⟨p, hp⟩ := hgetx q hq; rw [hp]; exact (hVx q p hp).2.2 ψ)
    (fun q hq ψ => by obtain ⟨p, hp⟩ := hgetz q hq; rw [hp]; exact (hVz q p hp).2.2 ψ)
  have ha0 : a ≠ 0 := by
    rintro rfl
    exact hV1 (by rw [ha _ fun _ _ _ => rfl, zero_smul])
  have hfold : ∀ (L : List ℕ) (k : ℂ) (φ : QState), L.foldl (fun φ u => ((D.get? u).getD ⟨0, ⟨0, [], .plus⟩⟩).op φ) (k • φ) =
      k • L.foldl (fun φ u => ((D.get? u).getD ⟨0, ⟨0, [], .plus⟩⟩).op φ) φ := by
    intro L
    induction L with
    | nil => intro k φ; rfl
    | cons u L ih => intro k φ; rw [List.foldl_cons, List.foldl_cons, Pexp.op_homog, ih]
  obtain ⟨e, he, hE⟩ := hE
  have hb0 : b ≠ 0 := by rintro rfl; simp at hb
  have he0 : e ≠ 0 := by rintro rfl; simp at he
  refine ⟨⟨d, cm⟩, c, ?_, c1, c2, fun i hi => (c3 i hi).1, ⟨e * a * b⁻¹, mul_ne_zero (mul_ne_zero he0 ha0) (inv_ne_zero hb0), fun ψ hψ => ?_⟩,
    fun i hi => (c3 i hi).2⟩
  · unfold Flow.extractCircuit
    simp only [hcl, ne_eq, not_true_eq_false, if_false, d1, cliffordMapOf, z1, x1, bind, Except.bind, pure, Except.pure]
    rfl
  · rw [linMap_tMap hv hcl hN, ← onWires_wMap hv, hE, c7]
    simp only []
    rw [hlen] at hψ
    have hav : wMap f.og [] (flipWires (negIn f.og) ψ) = a • gates l1 ψ := ha ψ hψ
    rw [hav, hfold, ← onWires_smul]
    simp only [smul_smul]
    rw [mul_assoc (e * a), inv_mul_cancel₀ hb0, mul_one]

open Classical in
/-- **C52.** The circuit extracted from a focused Pauli flow implements the map of the open graph preceded by `X` on the inputs that
have a Pauli measurement with a negative sign, up to a nonzero scalar. -/
theorem C52_extract_circuit (f : Flow) (hv : f.og.Valid) (hloop : ∀ v, (v, v) ∉ f.og.edges) (hcl : f.og.cliffords = [])
    (hk : f.corr.keys.Nodup) (hf : IsPauliFlow f) (hfoc : f.Focused) (hlen : f.og.inputs.length = f.og.outputs.length) (hpos : f.og.outputs ≠ [])
    (ord ord' : SetOrd) (ho : ord.Valid) (ho' : ord'.Valid) (mmo : MulOrd) (hmmo : mmo.Valid) :
    ∃ er c, f.extractCircuit ord mmo = .ok er ∧ erToCircuit er ord' = .ok c ∧ c.width = f.og.outputs.length ∧ (∀ i ∈ c.instrs, i.isGate) ∧
      ∃ a : ℂ, a ≠ 0 ∧ ∀ ψ, OnNodes (List.range f.og.inputs.length) ψ →
        f.og.linMap (onWires f.og.inputs (flipWires (fun k => decide (NegativeInput f.og k)) ψ)) = a • onWires f.og.outputs (gates c.instrs ψ) := by
  obtain ⟨er, c, h1, h2, h3, h4, h5, -⟩ := extract_main f hv hloop hcl hk hf hfoc hlen hpos ord ord' ho ho' mmo hmmo
  have : negIn f.og = fun k => decide (NegativeInput f.og k) := by
    funext k
    rw [Bool.eq_iff_iff, negIn_iff, decide_eq_true_eq]
  rw [← this]
  exact ⟨er, c, h1, h2, h3, h4, h5⟩

theorem onWires_inj {l : List ℕ} (hl : l.Nodup) {φ φ' : QState} (h1 : OnNodes (List.range l.length) φ) (h2 : OnNodes (List.range l.length) φ')
    (h : onWires l φ = onWires l φ') : φ = φ' := by
  funext b
  have hb : ∀ k ∈ List.range l.length, b k = (l[k]?).elim false fun v => b (l.idxOf v) := by
    intro k hk
    have hk := List.mem_range.1 hk
    rw [List.getElem?_eq_getElem hk, Option.elim_some, hl.idxOf_getElem]
  rw [h1 _ _ hb, h2 _ _ hb]
  exact congrFun h fun v => b (l.idxOf v)

/-- **C52.** The circuit implements the map of the open graph if and only if no input has a Pauli measurement with a negative sign. -/
theorem C52_extract_iff (f : Flow) (hv : f.og.Valid) (hloop : ∀ v, (v, v) ∉ f.og.edges) (hcl : f.og.cliffords = [])
    (hk : f.corr.keys.Nodup) (hf : IsPauliFlow f) (hfoc : f.Focused) (hlen : f.og.inputs.length = f.og.outputs.length) (hpos : f.og.outputs ≠ [])
    (ord ord' : SetOrd) (ho : ord.Valid) (ho' : ord'.Valid) (mmo : MulOrd) (hmmo : mmo.Valid) :
    ExtractsTo f ord ord' mmo ↔ ∀ k, ¬ NegativeInput f.og k := by
  obtain ⟨er, c, h1, h2, h3, h4, ⟨a, ha, h5⟩, h6⟩ := extract_main f hv hloop hcl hk hf hfoc hlen hpos ord ord' ho ho' mmo hmmo
  constructor
  · rintro ⟨er', c', g1, g2, -, -, a', ha', g3⟩ k hneg
    rw [h1] at g1; cases g1
    rw [h2] at g2; cases g2
    have hnk : negIn f.og k = true := (negIn_iff _ _).2 hneg
    obtain ⟨i, -, hi, -⟩ := hneg
    have hkn : k < f.og.inputs.length := (List.getElem?_eq_some_iff.1 hi).1
    obtain ⟨G, b1, b2, b3, b4⟩ := gates_bij c.instrs h6
    -- a state with the qubit `k` in `|0⟩`
    set ψ : QState := fun b => if b k then 0 else 1 with hψdef
    have hψ : OnNodes (List.range f.og.inputs.length) ψ := fun b b' h => by simp only [hψdef, h k (List.mem_range.2 hkn)]
    have hψ' := flipWires_onNodes (negIn f.og) hψ
    have e1 := h5 _ hψ'
    rw [flipWires_flipWires, g3 ψ hψ, ← onWires_smul, ← onWires_smul, ← Pexp.gates_homog, ← Pexp.gates_homog] at e1
    have hsm : ∀ (x : ℂ) {φ : QState}, OnNodes (List.range f.og.inputs.length) φ → OnNodes (List.range f.og.outputs.length) (gates c.instrs (x • φ)) := by
      intro x φ hφ
      refine b3 _ fun b b' h => ?_
      rw [← hlen] at h
      rw [Pi.smul_apply, Pi.smul_apply, hφ b b' h]
    have e2 := onWires_inj (f.og.postInit_ok hv.post).2.2.2.2.1 (hsm a' hψ) (hsm a hψ') e1
    have e3 : a' • ψ = a • flipWires (negIn f.og) ψ := by rw [← b1 (a' • ψ), e2, b1]
    have e4 := congrFun e3 fun _ => false
    simp only [Pi.smul_apply, hψdef, flipWires, hnk, smul_eq_mul] at e4
    simp at e4
    exact ha' e4
  · intro hneg
    have hno : negIn f.og = fun _ => false := by
      funext k
      rw [Bool.eq_false_iff]
      exact fun h => hneg k ((negIn_iff _ _).1 h)
    refine ⟨er, c, h1, h2, h3, h4, a, ha, fun ψ hψ => ?_⟩
    rw [← h5 ψ hψ, hno]
    congr 2
    funext b
    simp [flipWires]

/-- **C52.** The flows that `to_pauliflow` finds: the circuit implements the map of the open graph if and only if no input has a Pauli
measurement with a negative sign. -/
theorem C52_found_pauliflow (og : OpenGraph) (hv : og.Valid) (hloop : ∀ v, (v, v) ∉ og.edges) (hcl : og.cliffords = [])
    (hlen : og.inputs.length = og.outputs.length) (hpos : og.outputs ≠ []) (ord₀ : SetOrd) (ho₀ : ord₀.Valid) (mmo₀ : MulOrd) (hmmo₀ : mmo₀.Valid)
    (f : Flow) (hf : og.toPauliflow ord₀ mmo₀ = .ok f) (ord ord' : SetOrd) (ho : ord.Valid) (ho' : ord'.Valid) (mmo : MulOrd) (hmmo : mmo.Valid) :
    f.og = og ∧ (ExtractsTo f ord ord' mmo ↔ ∀ k, ¬ NegativeInput og k) := by
  obtain ⟨h1, h2⟩ := C28_focused og hv hloop ord₀ ho₀ mmo₀ hmmo₀ f (Or.inl hf)
  rcases C28_to_pauliflow og hv hloop ord₀ ho₀ mmo₀ hmmo₀ with ⟨f', g1, g2, g3⟩ | ⟨g1, -⟩
  · rw [hf] at g1; cases g1
    subst g2
    exact ⟨rfl, C52_extract_iff f hv hloop hcl h2 g3 h1 hlen hpos ord ord' ho ho' mmo hmmo⟩
  · rw [hf] at g1; cases g1

/-- A gflow is a Pauli flow. -/
theorem IsGFlow.isPauliFlow {f : Flow} (hv : f.og.Valid) (h : IsGFlow f) : IsPauliFlow f := by
  have hno : ∀ v a, ¬ f.og.HasLabel v (.axis a) := by
    intro v a hl
    obtain ⟨h1, h2⟩ := label_node hv hl
    obtain ⟨p, hp⟩ := h.planes v h1 h2
    cases hl.unique hp
  exact { toFlowBase := h.toFlowBase, p1 := fun u s hs v hvs hne _ _ => h.g1 u s hs v hvs hne, p2 := fun u s hs v hvn ho hne _ _ => h.g2 u s hs v hvn ho hne,
          p3 := fun u s hs v _ hl => (hno v _ hl).elim, p4 := h.g3, p5 := h.g4, p6 := h.g5,
          p7 := fun u s _ hl => (hno u _ hl).elim, p8 := fun u s _ hl => (hno u _ hl).elim, p9 := fun u s _ hl => (hno u _ hl).elim }

/-- **C52.** The circuit extracted from a focused gflow implements the map of the open graph; the gflows that `to_gflow` finds are focused. -/
theorem C52_found_gflow (og : OpenGraph) (hv : og.Valid) (hloop : ∀ v, (v, v) ∉ og.edges) (hcl : og.cliffords = [])
    (hpl : ∀ kv ∈ og.measurements, ∃ b, kv.2 = .bloch b)
    (hlen : og.inputs.length = og.outputs.length) (hpos : og.outputs ≠ []) (ord₀ : SetOrd) (ho₀ : ord₀.Valid) (mmo₀ : MulOrd) (hmmo₀ : mmo₀.Valid)
    (f : Flow) (hf : og.toGflow ord₀ mmo₀ = .ok f) (ord ord' : SetOrd) (ho : ord.Valid) (ho' : ord'.Valid) (mmo : MulOrd) (hmmo : mmo.Valid) :
    f.og = og ∧ ExtractsTo f ord ord' mmo := by
  obtain ⟨h1, h2⟩ := C28_focused og hv hloop ord₀ ho₀ mmo₀ hmmo₀ f (Or.inr ⟨hpl, hf⟩)
  rcases C28_to_gflow og hv hloop hpl ord₀ ho₀ mmo₀ hmmo₀ with ⟨f', g1, g2, g3⟩ | ⟨g1, -⟩
  · rw [hf] at g1; cases g1
    subst g2
    refine ⟨rfl, (C52_extract_iff f hv hloop hcl h2 (g3.isPauliFlow hv) h1 hlen hpos ord ord' ho ho' mmo hmmo).2 ?_⟩
    rintro k ⟨i, a, -, hm⟩
    obtain ⟨b, hb⟩ := hpl _ (PyDict.mem_of_get? hm)
    cases hb
  · rw [hf] at g1; cases g1

/-- **C52.** When the circuit implements the map of the open graph, it implements every pattern that does: in every branch, running
the pattern on the state of the inputs gives the state of the outputs that the circuit computes, up to a scalar. -/
theorem C52_pattern (f : Flow) (ord ord' : SetOrd) (mmo : MulOrd) (h : ExtractsTo f ord ord' mmo) (q : Pattern) (hq : Implements q f.og) :
    ∃ er c, f.extractCircuit ord mmo = .ok er ∧ erToCircuit er ord' = .ok c ∧
      ∀ r, ∃ a : ℂ, a ≠ 0 ∧ ∀ ψ, OnNodes (List.range q.inputs.length) ψ →
        semCmds r q.seq (onWires q.inputs ψ) = a • onWires q.outputs (gates c.instrs ψ) := by
  obtain ⟨er, c, h1, h2, -, -, a, ha, h3⟩ := h
  obtain ⟨-, -, hi, ho, hp, -, hs, -⟩ := hq
  refine ⟨er, c, h1, h2, fun r => ?_⟩
  obtain ⟨b, hb, h4⟩ := hs r
  have hb0 : b ≠ 0 := by rintro rfl; simp at hb
  refine ⟨b * a, mul_ne_zero hb0 ha, fun ψ hψ => ?_⟩
  rw [h4 _ ((onWires_onNodes q.inputs ψ).absent fun n hn => by rw [hp]; simp [← hi, hn]), hi, h3 ψ (hi ▸ hψ), ho, smul_smul]

/-! ### Errors -/

/-- Local Clifford gates on the outputs are refused. -/
theorem C52_cliffords (f : Flow) (ord : SetOrd) (mmo : MulOrd) (h : f.og.cliffords ≠ []) : f.extractCircuit ord mmo = .error .notImplementedError := by
  unfold Flow.extractCircuit
  rw [if_pos h]
  rfl

/-- A flow that is not focused is refused. -/
theorem C52_not_focused (f : Flow) (hv : f.og.Valid) (hk : f.corr.keys.Nodup) (hc : ∀ u s, f.corr.get? u = some s → s ⊆ f.og.nodes)
    (hcl : f.og.cliffords = []) (ord : SetOrd) (ho : ord.Valid) (mmo : MulOrd) (h : ¬ f.Focused) : f.extractCircuit ord mmo = .error .valueError := by
  obtain ⟨b, h1, h2⟩ := Flow.isFocused_spec hv hk hc ho
  have hb : b = false := by
    cases b
    · rfl
    · exact (h (h2.1 rfl)).elim
  subst hb
  have hne : f.corr.keys ≠ [] := by
    intro hh
    refine h fun u s hs => ?_
    have : u ∈ f.corr.keys := (PyDict.get?_isSome_iff _ _).1 (by rw [hs]; rfl)
    rw [hh] at this
    cases this
  unfold Flow.extractCircuit dagOf
  rw [if_neg (by simp [hcl])]
  obtain ⟨u, l, hl⟩ := List.exists_cons_of_ne_nil hne
  rw [hl]
  simp only [dictOf, pexpOf, pauliStrings, h1, bind, Except.bind, pure, Except.pure]
  rfl

/-- When there are fewer inputs than outputs, the extraction succeeds and the compilation is refused. -/
theorem C52_lengths (f : Flow) (hv : f.og.Valid) (hloop : ∀ v, (v, v) ∉ f.og.edges) (hcl : f.og.cliffords = [])
    (hk : f.corr.keys.Nodup) (hf : IsPauliFlow f) (hfoc : f.Focused) (hne : f.og.nodes ≠ ∅) (hlen : f.og.inputs.length ≠ f.og.outputs.length)
    (ord ord' : SetOrd) (ho : ord.Valid) (mmo : MulOrd) (hmmo : mmo.Valid) :
    ∃ er, f.extractCircuit ord mmo = .ok er ∧ erToCircuit er ord' = .error .notImplementedError := by
  obtain ⟨D, d1, d2, d3⟩ := dagOf_spec hf hfoc hk hv hloop ho
  obtain ⟨zs, z1, z2, z3⟩ := zMapOf_spec hf hfoc hk hv hloop ho
  obtain ⟨xs, x1, x2, x3⟩ := xMapOf_spec hf hv hloop hne ho hmmo
  refine ⟨⟨⟨D, f.layers, f.og.outputs⟩, ⟨xs, zs, f.og.inputs, f.og.outputs⟩⟩, ?_, ?_⟩
  · unfold Flow.extractCircuit
    simp only [hcl, ne_eq, not_true_eq_false, if_false, d1, cliffordMapOf, z1, x1, bind, Except.bind, pure, Except.pure]
  · unfold erToCircuit Berg.bergPass CliffordMap.toTableau
    simp only [ne_eq, not_true_eq_false, if_false]
    rw [if_pos hlen]
    rfl

/-! ### Examples -/

/-- A path of three nodes. -/
noncomputable def exPath (a b : Measurement) : Flow :=
  ⟨⟨{0, 1, 2}, [(0, 1), (1, 2)], [0], [2], [(0, a), (1, b)], []⟩, [(0, {1}), (1, {2})], [{2}, {1}, {0}]⟩

theorem exPath_valid (a b : Measurement) : (exPath a b).og.Valid where
  post := rfl
  edge_mem := by simp [exPath]; omega
  edge_once := by simp [exPath]
  meas_keys := by simp [exPath, PyDict.keys]
  clif_keys := by simp [exPath, PyDict.keys]

/-- The hypotheses are met by a path with two measurements in the XY plane; the circuit implements the map. -/
example : ∀ ord ord' : SetOrd, ord.Valid → ord'.Valid → ∀ mmo : MulOrd, mmo.Valid →
    ExtractsTo (exPath (.bloch ⟨1/4, .XY⟩) (.bloch ⟨1/8, .XY⟩)) ord ord' mmo := by
  intro ord ord' ho ho' mmo hmmo
  have hk : (exPath (.bloch ⟨1/4, .XY⟩) (.bloch ⟨1/8, .XY⟩)).corr.keys.Nodup := by simp [exPath, PyDict.keys]
  have hpf := (C29_pauliflow _ (exPath_valid _ _) hk exOrd exOrd_valid).1 rfl
  refine (C52_extract_iff _ (exPath_valid _ _) (by simp [exPath]; omega) rfl hk hpf ?_ rfl (by simp [exPath]) ord ord' ho ho' mmo hmmo).2 ?_
  · obtain ⟨b, h1, h2⟩ := Flow.isFocused_spec (exPath_valid (.bloch ⟨1/4, .XY⟩) (.bloch ⟨1/8, .XY⟩)) hk (fun u s hs v hvs => (hpf.image u s v hs hvs).1) exOrd_valid
    refine h2.1 ?_
    have : Except.ok true = Except.ok (ε := PyErr) b := by rw [← h1]; rfl
    cases this; rfl
  · rintro k ⟨i, a, h1, h2⟩
    have : k = 0 := by have := (List.getElem?_eq_some_iff.1 h1).1; simp [exPath] at this; exact this
    subst this
    cases h1
    cases h2

/-- The path of two nodes whose input is measured in the state `|-⟩`. -/
def exMinus : Flow := ⟨⟨{0, 1}, [(0, 1)], [0], [1], [(0, .pauli ⟨.X, .minus⟩)], []⟩, [(0, {1})], [{1}, {0}]⟩

/-- **C52.** Negation of the full claim: an open graph whose Pauli flow, which is focused, gives a circuit that does not implement the map. -/
theorem C52_negative_input : ∃ f : Flow, f.og.Valid ∧ (∀ v, (v, v) ∉ f.og.edges) ∧ f.og.cliffords = [] ∧ IsPauliFlow f ∧ f.Focused ∧
    f.og.inputs.length = f.og.outputs.length ∧
    ∀ ord ord' : SetOrd, ord.Valid → ord'.Valid → ∀ mmo : MulOrd, mmo.Valid → ¬ ExtractsTo f ord ord' mmo := by
  have hv : exMinus.og.Valid := ⟨rfl, by simp [exMinus], by simp [exMinus], by simp [exMinus, PyDict.keys], by simp [exMinus, PyDict.keys]⟩
  have hk : exMinus.corr.keys.Nodup := by simp [exMinus, PyDict.keys]
  have hloop : ∀ v, (v, v) ∉ exMinus.og.edges := by simp [exMinus]
  have hpf : IsPauliFlow exMinus := (C29_pauliflow _ hv hk exOrd exOrd_valid).1 rfl
  have hfoc : exMinus.Focused := by
    obtain ⟨b, h1, h2⟩ := Flow.isFocused_spec hv hk (fun u s hs v hvs => (hpf.image u s v hs hvs).1) exOrd_valid
    refine h2.1 ?_
    have : Except.ok true = Except.ok (ε := PyErr) b := by rw [← h1]; rfl
    cases this; rfl
  refine ⟨exMinus, hv, hloop, rfl, hpf, hfoc, rfl, fun ord ord' ho ho' mmo hmmo h => ?_⟩
  exact (C52_extract_iff _ hv hloop rfl hk hpf hfoc rfl (by simp [exMinus]) ord ord' ho ho' mmo hmmo).1 h 0 ⟨0, .X, rfl, rfl⟩

/-- A path of four nodes with a causal flow that is not focused. -/
example : ¬ (exFlow exLabels).Focused := by
  intro h
  have := (h 0 {1} rfl 2 (.plane .XY) (by decide) ⟨_, rfl, rfl⟩).2.1
    (by unfold OpenGraph.InOdd; decide)
  simp at this

end Graphix
