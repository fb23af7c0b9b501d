import Verif.Props.Transpile

/-!
# C38: elimination of swaps, and `transpile()` with its default argument
-/

namespace Graphix

open Function

/-- The instruction on renamed qubits. -/
def Instr.mapQ (f : ℕ → ℕ) : Instr → Instr
  | .CCX c0 c1 t => .CCX (f c0) (f c1) (f t)
  | .RZZ c t θ => .RZZ (f c) (f t) θ
  | .CNOT c t => .CNOT (f c) (f t)
  | .SWAP u v => .SWAP (f u) (f v)
  | .CZ u v => .CZ (f u) (f v)
  | .H t => .H (f t)
  | .S t => .S (f t)
  | .X t => .X (f t)
  | .Y t => .Y (f t)
  | .Z t => .Z (f t)
  | .I t => .I (f t)
  | .M t a => .M (f t) a
  | .RX t θ => .RX (f t) θ
  | .RY t θ => .RY (f t) θ
  | .RZ t θ => .RZ (f t) θ
  | .J t θ => .J (f t) θ

/-- The state in which the qubit `π q` is called `q`. -/
def renamed (π : Equiv.Perm ℕ) (ψ : QState) : QState := fun b => ψ (b ∘ π.symm)

theorem update_comp_symm (π : Equiv.Perm ℕ) (b : Basis) (q : ℕ) (x : Bool) :
    update b q x ∘ π.symm = update (b ∘ π.symm) (π q) x := by
  funext n
  by_cases h : n = π q
  · subst h; simp
  · have : π.symm n ≠ q := fun h' => h (by rw [← h']; simp)
    simp [h, this]

theorem op1_renamed (π : Equiv.Perm ℕ) (A : Mat2) (q : ℕ) (ψ : QState) :
    op1 A q (renamed π ψ) = renamed π (op1 A (π q) ψ) := by
  funext b
  simp [op1, renamed, update_comp_symm]

theorem projOut_renamed (π : Equiv.Perm ℕ) (v : Bool → ℂ) (q : ℕ) (ψ : QState) :
    projOut q v (renamed π ψ) = renamed π (projOut (π q) v ψ) := by
  rw [projOut_eq_op1, projOut_eq_op1, op1_renamed]

theorem gate_renamed (π : Equiv.Perm ℕ) (i : Instr) (ψ : QState) : i.gate (renamed π ψ) = renamed π ((i.mapQ π).gate ψ) := by
  cases i with
  | CCX c0 c1 t => funext b; simp [Instr.gate, Instr.mapQ, ccxOp, renamed, update_comp_symm]
  | RZZ c t θ => funext b; simp [Instr.gate, Instr.mapQ, rzzOp, renamed]
  | CNOT c t => funext b; simp [Instr.gate, Instr.mapQ, cnotOp, renamed, update_comp_symm]
  | SWAP u v =>
    funext b
    simp only [Instr.gate, Instr.mapQ, swapOp, renamed]
    congr 1
    funext n
    have := Equiv.symm_apply_eq (e := π) (x := n) (y := π.symm n)
    simp only [comp_apply]
    congr 1
    rw [Equiv.swap_apply_def, Equiv.swap_apply_def]
    simp only [Equiv.symm_apply_eq]
    split_ifs <;> simp
  | CZ u v => funext b; simp [Instr.gate, Instr.mapQ, cz, renamed]
  | I t => rfl
  | M t a => rfl
  | H t | S t | X t | Y t | Z t | RX t _ | RY t _ | RZ t _ | J t _ => exact op1_renamed π _ _ _

theorem swap_renamed (π : Equiv.Perm ℕ) (u v : ℕ) (ψ : QState) :
    swapOp u v (renamed π ψ) = renamed ((Equiv.swap u v).trans π) ψ := rfl

/-- Where the visitor of `transpile_swaps` is: `act` are the active qubits, `ms` the measured ones. -/
structure SwapInv (w : ℕ) (act : Finset ℕ) (π : Equiv.Perm ℕ) (ms : List ℕ) (outputs : List OutputIndex) : Prop where
  len : outputs.length = w
  act_lt : ∀ q ∈ act, q < w
  fix : ∀ q, w ≤ q → π q = q
  qub : ∀ q ∈ act, outputs[q]? = some (OutputIndex.qubit (π q))
  bits : ∀ i q, ms[i]? = some q → outputs[q]? = some (OutputIndex.bit i)
  ms_mem : ∀ q, q ∈ ms ↔ q < w ∧ q ∉ act

theorem SwapInv.init (w : ℕ) : SwapInv w (Finset.range w) 1 [] ((List.range w).map .qubit) where
  len := by simp
  act_lt := by simp
  fix := by simp
  qub := by intro q hq; simp at hq; simp [hq]
  bits := by simp
  ms_mem := by simp

theorem SwapInv.visitQubit {w : ℕ} {act : Finset ℕ} {π : Equiv.Perm ℕ} {ms : List ℕ} {outputs : List OutputIndex}
    (h : SwapInv w act π ms outputs) {q : ℕ} (hq : q ∈ act) : visitQubit outputs q = .ok (π q) := by
  unfold Graphix.visitQubit
  rw [h.qub q hq]

theorem SwapInv.visit {w : ℕ} {act : Finset ℕ} {π : Equiv.Perm ℕ} {ms : List ℕ} {outputs : List OutputIndex}
    (h : SwapInv w act π ms outputs) {i : Instr} (hi : Circuit.instrOk act i = true) :
    i.visit (Graphix.visitQubit outputs) = .ok (i.mapQ π) := by
  cases i <;> simp only [Circuit.instrOk, decide_eq_true_eq] at hi <;>
    simp [Instr.visit, h.visitQubit, hi, bind, Except.bind, pure, Except.pure, Instr.mapQ]

theorem instrOk_mapQ {act : Finset ℕ} (π : Equiv.Perm ℕ) {i : Instr} (hi : Circuit.instrOk act i = true) :
    Circuit.instrOk (act.image π) (i.mapQ π) = true := by
  cases i <;> simp only [Circuit.instrOk, Instr.mapQ, decide_eq_true_eq] at hi ⊢ <;> simpa using hi

/-- The instruction is a swap. -/
def Instr.isSwap : Instr → Prop
  | .SWAP _ _ => True
  | _ => False

theorem swapsLoop_spec {w : ℕ} (l : List Instr) : ∀ {act : Finset ℕ} {π : Equiv.Perm ℕ} {ms : List ℕ} {outputs : List OutputIndex}
    {c : Circuit}, SwapInv w act π ms outputs → c.active = act.image π → Circuit.listOk act l →
    ∃ (c' : Circuit) (outs : List OutputIndex) (π' : Equiv.Perm ℕ) (l' : List Instr), transpileSwapsLoop l c outputs ms.length = .ok (c', outs) ∧
      SwapInv w (Circuit.afterList act l) π' (ms ++ measuredQubits l) outs ∧
      c' = ⟨c.width, c.instrs ++ l', (Circuit.afterList act l).image π'⟩ ∧
      Circuit.listOk (act.image π) l' ∧ Circuit.afterList (act.image π) l' = (Circuit.afterList act l).image π' ∧
      (∀ i ∈ l', ¬ i.isSwap) ∧ (∀ q ∉ act, π' q = π q) ∧ ((∀ i ∈ l, ¬ i.isSwap) → π' = π) ∧ measuredQubits l' = (measuredQubits l).map π' ∧
      ((∀ i ∈ l, i.Proper ∧ ¬ i.isId) → ∀ i ∈ l', i.Proper ∧ ¬ i.isId) ∧
      ∀ o ψ, semInstrs o ms.length l (renamed π ψ) = renamed π' (semInstrs o ms.length l' ψ) := by
  induction l with
  | nil =>
    intro act π ms outputs c h hc _
    refine ⟨c, outputs, π, [], rfl, by simpa [measuredQubits, Circuit.afterList] using h, ?_, trivial, rfl, by simp, fun _ _ => rfl,
      fun _ => rfl, rfl, by simp, fun _ _ => rfl⟩
    cases c; simp_all [Circuit.afterList]
  | cons i l ih =>
    intro act π ms outputs c h hc hok
    obtain ⟨hi, hl⟩ := hok
    have hk := instrOk_mapQ π hi
    -- a gate that is neither a swap nor a measurement
    have generic : i.isGate → ¬ i.isSwap →
        transpileSwapsLoop (i :: l) c outputs ms.length = (do
          let i ← i.visit (visitQubit outputs)
          let c ← c.add i
          transpileSwapsLoop l c outputs ms.length) → i.after act = act → (i.mapQ π).after (act.image π) = act.image π →
        measuredQubits (i :: l) = measuredQubits l → (∀ l', measuredQubits (i.mapQ π :: l') = measuredQubits l') →
        ¬ (i.mapQ π).isSwap → (i.Proper ∧ ¬ i.isId → (i.mapQ π).Proper ∧ ¬ (i.mapQ π).isId) →
        (∀ o k l ψ, semInstrs o k (i :: l) ψ = semInstrs o k l (i.gate ψ)) →
        (∀ o k l ψ, semInstrs o k (i.mapQ π :: l) ψ = semInstrs o k l ((i.mapQ π).gate ψ)) →
        ∃ (c' : Circuit) (outs : List OutputIndex) (π' : Equiv.Perm ℕ) (l' : List Instr), transpileSwapsLoop (i :: l) c outputs ms.length = .ok (c', outs) ∧
          SwapInv w (Circuit.afterList act (i :: l)) π' (ms ++ measuredQubits (i :: l)) outs ∧
          c' = ⟨c.width, c.instrs ++ l', (Circuit.afterList act (i :: l)).image π'⟩ ∧
          Circuit.listOk (act.image π) l' ∧ Circuit.afterList (act.image π) l' = (Circuit.afterList act (i :: l)).image π' ∧
          (∀ i ∈ l', ¬ i.isSwap) ∧ (∀ q ∉ act, π' q = π q) ∧ ((∀ j ∈ i :: l, ¬ j.isSwap) → π' = π) ∧ measuredQubits l' = (measuredQubits (i :: l)).map π' ∧
          ((∀ j ∈ i :: l, j.Proper ∧ ¬ j.isId) → ∀ i ∈ l', i.Proper ∧ ¬ i.isId) ∧
          ∀ o ψ, semInstrs o ms.length (i :: l) (renamed π ψ) = renamed π' (semInstrs o ms.length l' ψ) := by
      intro _ _ hloop ha ha' hm hm' hs hp hsem hsem'
      rw [ha] at hl
      obtain ⟨c', outs, π', l', h1, h2, h3, h4, h5, h6, h7, h7', h8, h9, h10⟩ :=
        ih (c := ⟨c.width, c.instrs ++ [i.mapQ π], act.image π⟩) h rfl hl
      have hadd : c.add (i.mapQ π) = .ok ⟨c.width, c.instrs ++ [i.mapQ π], act.image π⟩ :=
        Circuit.add_ok_iff.2 ⟨by rw [hc]; exact hk, by rw [hc, ha']⟩
      refine ⟨c', outs, π', i.mapQ π :: l', ?_, ?_, ?_, ?_, ?_, ?_, h7, fun hj => h7' fun j hj' => hj j (by simp [hj']), ?_, ?_, ?_⟩
      · rw [hloop, h.visit hi]
        simp only [bind, Except.bind, hadd]
        exact h1
      · rw [hm]; simpa only [Circuit.afterList, ha] using h2
      · rw [h3]; simp [Circuit.afterList, ha]
      · exact ⟨hk, by rw [ha']; exact h4⟩
      · simp only [Circuit.afterList, ha, ha']; exact h5
      · intro j hj
        rcases List.mem_cons.1 hj with rfl | hj
        · exact hs
        · exact h6 j hj
      · rw [hm', hm]; exact h8
      · intro hj j hj'
        rcases List.mem_cons.1 hj' with rfl | hj'
        · exact hp (hj i (by simp))
        · exact h9 (fun j hj'' => hj j (by simp [hj''])) j hj'
      · intro o ψ
        rw [hsem, hsem', gate_renamed, h10]
    cases i with
    | SWAP u v =>
      simp only [Circuit.instrOk, decide_eq_true_eq] at hi
      obtain ⟨hu, hv, huv⟩ := hi
      have hinv : SwapInv w act ((Equiv.swap u v).trans π) ms
          ((outputs.set u (.qubit (π v))).set v (.qubit (π u))) := by
        have hul := h.act_lt u hu
        have hvl := h.act_lt v hv
        refine ⟨by simp [h.len], h.act_lt, ?_, ?_, ?_, h.ms_mem⟩
        · intro q hq
          rw [Equiv.trans_apply, Equiv.swap_apply_of_ne_of_ne (by omega) (by omega), h.fix q hq]
        · intro q hq
          rw [Equiv.trans_apply]
          by_cases hqv : q = v
          · subst hqv; rw [Equiv.swap_apply_right, List.getElem?_set_self (by simp [h.len, hvl])]
          · rw [List.getElem?_set_ne (fun h => hqv h.symm)]
            by_cases hqu : q = u
            · subst hqu; rw [Equiv.swap_apply_left, List.getElem?_set_self (by simp [h.len, hul])]
            · rw [List.getElem?_set_ne (fun h => hqu h.symm), Equiv.swap_apply_of_ne_of_ne hqu hqv, h.qub q hq]
        · intro j q hj
          have hq : q ∉ act := ((h.ms_mem q).1 (List.mem_of_getElem? hj)).2
          rw [List.getElem?_set_ne (by rintro rfl; exact hq hv), List.getElem?_set_ne (by rintro rfl; exact hq hu), h.bits j q hj]
      have himg : act.image ((Equiv.swap u v).trans π) = act.image π := by
        ext n
        simp only [Finset.mem_image, Equiv.trans_apply]
        constructor
        · rintro ⟨q, hq, rfl⟩
          refine ⟨Equiv.swap u v q, ?_, rfl⟩
          rw [Equiv.swap_apply_def]; split_ifs <;> assumption
        · rintro ⟨q, hq, rfl⟩
          refine ⟨Equiv.swap u v q, ?_, by simp⟩
          rw [Equiv.swap_apply_def]; split_ifs <;> assumption
      obtain ⟨c', outs, π', l', h1, h2, h3, h4, h5, h6, h7, h7', h8, h9, h10⟩ := ih (c := c) hinv (by rw [hc, himg]) hl
      rw [himg] at h4 h5
      refine ⟨c', outs, π', l', ?_, h2, h3, h4, h5, h6, ?_, fun hj => (hj _ List.mem_cons_self trivial).elim, h8, ?_, ?_⟩
      · rw [transpileSwapsLoop]
        simp only [h.visitQubit hu, h.visitQubit hv, bind, Except.bind, h.qub u hu, h.qub v hv]
        exact h1
      · intro q hq
        rw [h7 q hq, Equiv.trans_apply, Equiv.swap_apply_of_ne_of_ne (by rintro rfl; exact hq hu) (by rintro rfl; exact hq hv)]
      · intro hj; exact h9 fun j hj' => hj j (by simp [hj'])
      · intro o ψ
        rw [← h10, ← swap_renamed]; rfl
    | M t a =>
      simp only [Circuit.instrOk, decide_eq_true_eq] at hi
      have htl := h.act_lt t hi
      have hinv : SwapInv w (act.erase t) π (ms ++ [t]) (outputs.set t (.bit ms.length)) := by
        refine ⟨by simp [h.len], fun q hq => h.act_lt q (Finset.mem_of_mem_erase hq), h.fix, ?_, ?_, ?_⟩
        · intro q hq
          rw [List.getElem?_set_ne (Finset.ne_of_mem_erase hq).symm, h.qub q (Finset.mem_of_mem_erase hq)]
        · intro j q hj
          rw [List.getElem?_append] at hj
          split at hj
          · have hq : q ∉ act := ((h.ms_mem q).1 (List.mem_of_getElem? hj)).2
            rw [List.getElem?_set_ne (by rintro rfl; exact hq hi), h.bits j q hj]
          · rename_i hlt
            obtain ⟨hj1, hj2⟩ : j - ms.length = 0 ∧ t = q := by
              rcases hx : j - ms.length with _ | m
              · rw [hx] at hj; simpa using hj
              · rw [hx] at hj; simp at hj
            subst hj2
            have : j = ms.length := by omega
            subst this
            rw [List.getElem?_set_self (by rw [h.len]; exact htl)]
        · intro q
          simp only [List.mem_append, h.ms_mem, List.mem_singleton, Finset.mem_erase]
          by_cases hqt : q = t
          · subst hqt; simp [htl]
          · simp [hqt]
      have himg : (act.erase t).image π = (act.image π).erase (π t) := by
        ext n
        simp only [Finset.mem_image, Finset.mem_erase]
        constructor
        · rintro ⟨q, ⟨hq, hq'⟩, rfl⟩; exact ⟨fun h => hq (π.injective h), q, hq', rfl⟩
        · rintro ⟨hq, q, hq', rfl⟩; exact ⟨q, ⟨fun h => hq (by rw [h]), hq'⟩, rfl⟩
      obtain ⟨c', outs, π', l', h1, h2, h3, h4, h5, h6, h7, h7', h8, h9, h10⟩ :=
        ih (c := ⟨c.width, c.instrs ++ [.M (π t) a], (act.erase t).image π⟩) hinv rfl hl
      rw [himg] at h4 h5
      have hadd : c.add (.M (π t) a) = .ok ⟨c.width, c.instrs ++ [.M (π t) a], (act.erase t).image π⟩ :=
        Circuit.add_ok_iff.2 ⟨by rw [hc]; exact hk, by rw [hc, himg]; rfl⟩
      rw [List.length_append, List.length_singleton] at h1
      refine ⟨c', outs, π', .M (π t) a :: l', ?_, ?_, ?_, ⟨hk, h4⟩, h5, ?_, ?_, fun hj => h7' fun j hj' => hj j (by simp [hj']), ?_, ?_, ?_⟩
      · rw [transpileSwapsLoop]
        have : (Instr.M t a).visit (Graphix.visitQubit outputs) = .ok (.M (π t) a) :=
          h.visit (i := .M t a) (by simpa [Circuit.instrOk] using hi)
        simp only [this, bind, Except.bind, hadd]
        exact h1
      · rw [List.append_assoc] at h2; exact h2
      · rw [h3]; simp [Circuit.afterList, Instr.after]
      · intro j hj
        rcases List.mem_cons.1 hj with rfl | hj
        · simp [Instr.isSwap]
        · exact h6 j hj
      · intro q hq; exact h7 q (fun h => hq (Finset.mem_of_mem_erase h))
      · change π t :: measuredQubits l' = π' t :: (measuredQubits l).map π'
        rw [h8, h7 t (by simp)]
      · intro hj j hj'
        rcases List.mem_cons.1 hj' with rfl | hj'
        · simp [Instr.Proper, Instr.isId]
        · exact h9 (fun j hj'' => hj j (by simp [hj''])) j hj'
      · intro o ψ
        rw [List.length_append, List.length_singleton] at h10
        rw [semInstrs, semInstrs, projOut_renamed, h10]
    | _ =>
      exact generic trivial (by simp [Instr.isSwap]) rfl rfl rfl rfl (fun _ => rfl) (by simp [Instr.isSwap, Instr.mapQ])
        (by simp [Instr.Proper, Instr.isId, Instr.mapQ]) (fun _ _ _ _ => rfl) (fun _ _ _ _ => rfl)

/-! ### The order of the outputs -/

theorem lookupAll_ok {α : Type} {f : ℕ → Option α} {g : ℕ → α} {e : PyErr} {l : List ℕ} (h : ∀ x ∈ l, f x = some (g x)) :
    TranspileSwapsResult.lookupAll f e l = .ok (l.map g) := by
  induction l with
  | nil => rfl
  | cons x l ih =>
    simp [TranspileSwapsResult.lookupAll, h x (by simp), ih fun y hy => h y (by simp [hy]), bind, Except.bind, pure, Except.pure]

theorem lookupAll_error {α : Type} {f : ℕ → Option α} {e : PyErr} {l : List ℕ} (h : ∃ x ∈ l, f x = none) :
    TranspileSwapsResult.lookupAll f e l = .error e := by
  induction l with
  | nil => simp at h
  | cons x l ih =>
    unfold TranspileSwapsResult.lookupAll
    rcases hx : f x with _ | a
    · rfl
    · have : ∃ y ∈ l, f y = none := by
        obtain ⟨y, hy, hf⟩ := h
        rcases List.mem_cons.1 hy with rfl | hy
        · rw [hx] at hf; cases hf
        · exact ⟨y, hy, hf⟩
      simp only [ih this, bind, Except.bind]

theorem reducedIndex_get (out : ℕ → OutputIndex) (act : Finset ℕ) (x : ℕ) (hq : ∀ q, (∃ i, out q = .qubit i) ↔ q ∈ act) :
    ∀ (l : List ℕ) (ctr : ℕ) (d : PyDict ℕ ℕ), l.Nodup →
    (TranspileSwapsResult.reducedIndex (l.map fun q => (out q, q)) ctr d).get? x =
      if x ∈ l.filter (· ∈ act) then some (ctr + (l.filter (· ∈ act)).idxOf x) else d.get? x := by
  intro l
  induction l with
  | nil => intro ctr d _; simp [TranspileSwapsResult.reducedIndex]
  | cons q l ih =>
    intro ctr d hn
    rw [List.nodup_cons] at hn
    rw [List.map_cons]
    rcases ho : out q with i | i
    · have hqa : q ∈ act := (hq q).1 ⟨i, ho⟩
      rw [TranspileSwapsResult.reducedIndex, ih _ _ hn.2, List.filter_cons_of_pos (by simpa using hqa)]
      by_cases hx : x = q
      · subst hx
        have : x ∉ l.filter (· ∈ act) := fun h => hn.1 (List.mem_filter.1 h).1
        rw [if_neg this, if_pos (by simp), PyDict.get?_set_self]
        simp
      · rw [PyDict.get?_set_ne _ _ (fun h => hx h.symm), List.idxOf_cons_ne _ (fun h => hx h.symm)]
        simp only [List.mem_cons, hx, false_or]
        congr 2
        omega
    · have hqa : q ∉ act := fun h => by
        obtain ⟨j, hj⟩ := (hq q).2 h
        rw [ho] at hj; cases hj
      rw [TranspileSwapsResult.reducedIndex, ih _ _ hn.2, List.filter_cons_of_neg (by simpa using hqa)]

section Outputs

variable {w : ℕ} {act : Finset ℕ} {π : Equiv.Perm ℕ} {ms : List ℕ} {outputs : List OutputIndex}

/-- What the visitor says of a qubit. -/
def outOf (act : Finset ℕ) (π : Equiv.Perm ℕ) (ms : List ℕ) (q : ℕ) : OutputIndex :=
  if q ∈ act then .qubit (π q) else .bit (ms.idxOf q)

theorem SwapInv.outputs_eq (h : SwapInv w act π ms outputs) : outputs = (List.range w).map (outOf act π ms) := by
  apply List.ext_getElem?
  intro q
  by_cases hq : q < w
  · rw [List.getElem?_map, List.getElem?_range hq, Option.map_some]
    unfold outOf
    by_cases ha : q ∈ act
    · rw [if_pos ha, h.qub q ha]
    · rw [if_neg ha]
      exact h.bits _ q (by rw [List.getElem?_idxOf]; exact (h.ms_mem q).2 ⟨hq, ha⟩)
  · rw [List.getElem?_eq_none (by rw [h.len]; omega), List.getElem?_eq_none (by simp; omega)]

theorem SwapInv.qubits_eq (h : SwapInv w act π ms outputs) (c : Circuit) :
    (TranspileSwapsResult.mk c outputs).qubits = ((List.range w).filter (· ∈ act)).map π := by
  unfold TranspileSwapsResult.qubits
  simp only [h.outputs_eq]
  generalize List.range w = l
  induction l with
  | nil => rfl
  | cons q l ih =>
    rw [List.map_cons]
    by_cases ha : q ∈ act
    · rw [List.filterMap_cons_some (b := π q) (by simp [outOf, ha]), ih, List.filter_cons_of_pos (by simpa using ha), List.map_cons]
    · rw [List.filterMap_cons_none (by simp [outOf, ha]), ih, List.filter_cons_of_neg (by simpa using ha)]

theorem SwapInv.bits_eq (h : SwapInv w act π ms outputs) (c : Circuit) :
    (TranspileSwapsResult.mk c outputs).bits = ((List.range w).filter (· ∉ act)).map ms.idxOf := by
  unfold TranspileSwapsResult.bits
  simp only [h.outputs_eq]
  generalize List.range w = l
  induction l with
  | nil => rfl
  | cons q l ih =>
    rw [List.map_cons]
    by_cases ha : q ∈ act
    · rw [List.filterMap_cons_none (by simp [outOf, ha]), ih, List.filter_cons_of_neg (by simpa using ha)]
    · rw [List.filterMap_cons_some (b := ms.idxOf q) (by simp [outOf, ha]), ih, List.filter_cons_of_pos (by simpa using ha), List.map_cons]

theorem SwapInv.reduced (h : SwapInv w act π ms outputs) (x : ℕ) :
    (TranspileSwapsResult.reducedIndex outputs.zipIdx 0 []).get? x =
      if x ∈ act then some (((List.range w).filter (· ∈ act)).idxOf x) else none := by
  have hz : outputs.zipIdx = (List.range w).map fun q => (outOf act π ms q, q) := by
    rw [h.outputs_eq]
    apply List.ext_getElem?
    intro q
    rw [List.getElem?_zipIdx]
    by_cases hq : q < w
    · simp [hq]
    · rw [List.getElem?_eq_none (by simp; omega), List.getElem?_eq_none (by simp; omega)]; rfl
  rw [hz, reducedIndex_get _ act x (by
    intro q; unfold outOf
    by_cases ha : q ∈ act <;> simp [ha]) _ _ _ List.nodup_range]
  have : x ∈ (List.range w).filter (· ∈ act) ↔ x ∈ act := by
    simp only [List.mem_filter, List.mem_range, decide_eq_true_eq]
    exact ⟨fun h => h.2, fun hx => ⟨h.act_lt x hx, hx⟩⟩
  simp only [this, Nat.zero_add]
  rfl

theorem range_filter_sort {w : ℕ} {s : Finset ℕ} (h : ∀ q ∈ s, q < w) : (List.range w).filter (· ∈ s) = s.sort (· ≤ ·) := by
  refine List.Perm.eq_of_pairwise (le := (· ≤ ·)) (fun a b _ _ h1 h2 => le_antisymm h1 h2) ?_ ?_ ?_
  · exact (List.pairwise_le_range).filter _
  · exact Finset.pairwise_sort _ _
  · rw [List.perm_ext_iff_of_nodup (List.nodup_range.filter _) (Finset.sort_nodup _ _)]
    intro n
    simp only [List.mem_filter, List.mem_range, decide_eq_true_eq, Finset.mem_sort]
    exact ⟨fun h => h.2, fun hn => ⟨h n hn, hn⟩⟩

end Outputs

/-- All that is known of the result of `transpile_swaps`. -/
theorem swaps_all (c : Circuit) (hc : c.Built) :
    ∃ (l' : List Instr) (outs : List OutputIndex) (π : Equiv.Perm ℕ),
      transpileSwaps c = .ok ⟨⟨c.width, l', c.active.image π⟩, outs⟩ ∧ (Circuit.mk c.width l' (c.active.image π)).Built ∧
      SwapInv c.width c.active π (measuredQubits c.instrs) outs ∧ (∀ i ∈ l', ¬ i.isSwap) ∧
      ((∀ i ∈ c.instrs, ¬ i.isSwap) → π = 1) ∧ measuredQubits l' = (measuredQubits c.instrs).map π ∧
      ((∀ i ∈ c.instrs, i.Proper ∧ ¬ i.isId) → ∀ i ∈ l', i.Proper ∧ ¬ i.isId) ∧
      (∀ o ψ b, semInstrs o 0 c.instrs ψ b = semInstrs o 0 l' ψ (b ∘ π.symm)) ∧
      (c.active.image π = c.active → ∀ node : ℕ → ℕ,
        (TranspileSwapsResult.mk ⟨c.width, l', c.active.image π⟩ outs).swapOutputNodes (((c.active.image π).sort (· ≤ ·)).map node) =
        .ok ((c.active.sort (· ≤ ·)).map fun q => node (π q))) ∧
      (c.active.image π ≠ c.active → ∀ nodes,
        (TranspileSwapsResult.mk ⟨c.width, l', c.active.image π⟩ outs).swapOutputNodes nodes = .error .keyError) ∧
      ∀ node : ℕ → ℕ,
        (TranspileSwapsResult.mk ⟨c.width, l', c.active.image π⟩ outs).swapClassicalOutputs ((measuredQubits l').map node) =
        .ok (((Finset.range c.width \ c.active).sort (· ≤ ·)).map fun q => node (π q)) := by
  obtain ⟨hok, hact⟩ := hc.listOk
  obtain ⟨c', outs, π, l', h1, h2, h3, h4, h5, h6, -, h7', h8, h9, h10⟩ :=
    swapsLoop_spec (c := Circuit.new c.width) c.instrs (SwapInv.init c.width) (by ext; simp [Circuit.new]) hok
  have h1r : (Finset.range c.width).image (1 : Equiv.Perm ℕ) = Finset.range c.width := by ext; simp
  rw [h1r] at h4 h5
  rw [← hact] at h2 h3 h5
  rw [List.nil_append] at h2
  subst h3
  have hlist : (List.range c.width).filter (· ∈ c.active) = c.active.sort (· ≤ ·) := range_filter_sort h2.act_lt
  have hlist' : (List.range c.width).filter (· ∉ c.active) = (Finset.range c.width \ c.active).sort (· ≤ ·) := by
    rw [← range_filter_sort (w := c.width) (s := Finset.range c.width \ c.active) (by simp; tauto)]
    apply List.filter_congr
    intro q hq
    simp at hq
    simp [hq]
  refine ⟨l', outs, π, ?_, ⟨c.width, l', Circuit.extend_ok_iff.2 ⟨h4, ?_⟩⟩, h2, h6, h7', h8, h9, ?_, ?_, ?_, ?_⟩
  · unfold transpileSwaps
    simp only [List.length_nil] at h1
    rw [h1]; rfl
  · simp only [Circuit.new, h5, List.nil_append]
  · intro o ψ b
    exact congrFun (h10 o ψ) b
  · intro ha node
    have hidx : (TranspileSwapsResult.mk ⟨c.width, l', c.active.image π⟩ outs).extractOutputNodeIndices =
        .ok ((((List.range c.width).filter (· ∈ c.active)).map π).map ((List.range c.width).filter (· ∈ c.active)).idxOf) := by
      unfold TranspileSwapsResult.extractOutputNodeIndices
      rw [h2.qubits_eq]
      apply lookupAll_ok
      intro x hx
      rw [List.mem_map] at hx
      obtain ⟨q, hq, rfl⟩ := hx
      rw [h2.reduced, if_pos]
      rw [← ha]
      exact Finset.mem_image_of_mem _ (by simpa using (List.mem_filter.1 hq).2)
    unfold TranspileSwapsResult.swapOutputNodes
    rw [hidx]
    simp only [bind, Except.bind, ha]
    rw [hlist, List.map_map]
    have : ∀ x ∈ (c.active.sort (· ≤ ·)).map ((c.active.sort (· ≤ ·)).idxOf ∘ π),
        ((c.active.sort (· ≤ ·)).map node)[x]? = some (((c.active.sort (· ≤ ·)).map node).getD x 0) := by
      intro x hx
      rw [List.mem_map] at hx
      obtain ⟨q, hq, rfl⟩ := hx
      have hm : π q ∈ c.active.sort (· ≤ ·) := by
        rw [Finset.mem_sort] at hq ⊢
        rw [← ha]; exact Finset.mem_image_of_mem _ hq
      have hlt : (c.active.sort (· ≤ ·)).idxOf (π q) < (c.active.sort (· ≤ ·)).length := List.idxOf_lt_length_of_mem hm
      rw [comp_apply, List.getD_eq_getElem?_getD, List.getElem?_eq_getElem (by simpa using hlt)]; rfl
    rw [lookupAll_ok this, List.map_map]
    congr 1
    apply List.map_congr_left
    intro q hq
    have hm : π q ∈ c.active.sort (· ≤ ·) := by
      rw [Finset.mem_sort] at hq ⊢
      rw [← ha]; exact Finset.mem_image_of_mem _ hq
    simp only [comp_apply, List.getD_eq_getElem?_getD, List.getElem?_map, List.getElem?_idxOf hm]
    rfl
  · intro ha nodes
    unfold TranspileSwapsResult.swapOutputNodes TranspileSwapsResult.extractOutputNodeIndices
    rw [h2.qubits_eq, lookupAll_error]
    · rfl
    · by_contra hno
      push Not at hno
      apply ha
      have hsub : c.active.image π ⊆ c.active := by
        intro n hn
        rw [Finset.mem_image] at hn
        obtain ⟨q, hq, rfl⟩ := hn
        have := hno (π q) (List.mem_map_of_mem (List.mem_filter.2 ⟨by simpa using h2.act_lt q hq, by simpa using hq⟩))
        rw [h2.reduced] at this
        by_contra hn
        rw [if_neg hn] at this
        exact this rfl
      exact Finset.eq_of_subset_of_card_le hsub (by rw [Finset.card_image_of_injective _ π.injective])
  · intro node
    unfold TranspileSwapsResult.swapClassicalOutputs
    rw [h2.bits_eq, hlist']
    rw [lookupAll_ok (g := fun k => ((measuredQubits c.instrs).map fun q => node (π q)).getD k 0), List.map_map]
    · congr 1
      apply List.map_congr_left
      intro q hq
      have hm : q ∈ measuredQubits c.instrs := by
        rw [h2.ms_mem]; simpa using hq
      simp only [comp_apply, List.getD_eq_getElem?_getD, List.getElem?_map, List.getElem?_idxOf hm]
      rfl
    · intro k hk
      rw [List.mem_map] at hk
      obtain ⟨q, hq, rfl⟩ := hk
      have hm : q ∈ measuredQubits c.instrs := by
        rw [h2.ms_mem]; simpa using hq
      have h8' : measuredQubits l' = (measuredQubits c.instrs).map π := by simpa using h8
      simp only [h8', List.map_map, List.getElem?_map, List.getD_eq_getElem?_getD, List.getElem?_idxOf hm]
      rfl

/-- **C38.** For every circuit built with the API, `transpile_swaps` succeeds. The new circuit is built with the API, has no
SWAP and the same width; there is a permutation `π` of the qubits such that the qubit `q` of the given circuit is the
qubit `π q` of the new one: `outputs[q]` is `π q` when `q` is not measured, and the index of the measurement of `q`
otherwise; the measurements come in the same order; and for all outcomes and all states the two circuits give the same
state, `π q` playing the role of `q`. -/
theorem C38_transpile_swaps (c : Circuit) (hc : c.Built) :
    ∃ res, transpileSwaps c = .ok res ∧ res.circuit.Built ∧ res.circuit.width = c.width ∧
      (∀ u v, Instr.SWAP u v ∉ res.circuit.instrs) ∧ res.outputs.length = c.width ∧
      ∃ π : Equiv.Perm ℕ, (∀ q, c.width ≤ q → π q = q) ∧
        (∀ q ∈ c.active, res.outputs[q]? = some (OutputIndex.qubit (π q))) ∧
        (∀ k q, (measuredQubits c.instrs)[k]? = some q → res.outputs[q]? = some (OutputIndex.bit k)) ∧
        res.circuit.active = c.active.image π ∧ measuredQubits res.circuit.instrs = (measuredQubits c.instrs).map π ∧
        ∀ o ψ b, semInstrs o 0 c.instrs ψ b = semInstrs o 0 res.circuit.instrs ψ (b ∘ π.symm) := by
  obtain ⟨l', outs, π, h1, h2, h3, h4, -, h5, -, h6, -⟩ := swaps_all c hc
  exact ⟨_, h1, h2, rfl, fun u v h => h4 _ h trivial, h3.len, π, h3.fix, h3.qub, h3.bits, rfl, h5, h6⟩

/-- **C38, order of the outputs.** Let `node` say which node carries each qubit of the circuit without swaps, listed as
`transpile` lists them. When the two circuits end with the same active qubits, `swap_output_nodes` gives the nodes that
carry the qubits of the given circuit in increasing order. Otherwise it raises `KeyError` (`C38_key_error`).
`swap_classical_outputs` gives the nodes of the measured qubits, in increasing order of the qubits: the order of the gates
only when the circuit measures its qubits in increasing order (`C38_classical_order`). -/
theorem C38_outputs_partial (c : Circuit) (hc : c.Built) (res : TranspileSwapsResult) (hres : transpileSwaps c = .ok res) :
    ∃ π : Equiv.Perm ℕ, (∀ o ψ b, semInstrs o 0 c.instrs ψ b = semInstrs o 0 res.circuit.instrs ψ (b ∘ π.symm)) ∧
      (res.circuit.active = c.active → ∀ node : ℕ → ℕ, res.swapOutputNodes ((res.circuit.active.sort (· ≤ ·)).map node) =
        .ok ((c.active.sort (· ≤ ·)).map fun q => node (π q))) ∧
      (res.circuit.active ≠ c.active → ∀ nodes, res.swapOutputNodes nodes = .error .keyError) ∧
      ∀ node : ℕ → ℕ, res.swapClassicalOutputs ((measuredQubits res.circuit.instrs).map node) =
        .ok (((Finset.range c.width \ c.active).sort (· ≤ ·)).map fun q => node (π q)) := by
  obtain ⟨l', outs, π, h1, -, -, -, -, -, -, h6, h7, h8, h9⟩ := swaps_all c hc
  rw [h1] at hres
  cases hres
  exact ⟨π, h6, h7, h8, h9⟩

/-- `swap(0, 1); m(0)`: the active qubit of the circuit without swaps is `0`. -/
def exSwapM : Circuit := ⟨2, [.SWAP 0 1, .M 0 .Z], {1}⟩

theorem exSwapM_built : exSwapM.Built :=
  ⟨2, exSwapM.instrs, Circuit.extend_ok_iff.2
    ⟨by simp [exSwapM, Circuit.listOk, Circuit.instrOk, Instr.after, Circuit.new], rfl⟩⟩

/-- **C38 fails with measurements.** A circuit whose outputs cannot be reordered: `KeyError`, and so does `transpile()`. -/
theorem C38_key_error : ∃ c : Circuit, c.Built ∧ c.instrs = [.SWAP 0 1, .M 0 .Z] ∧
    ∃ res, transpileSwaps c = .ok res ∧ ∀ nodes, res.swapOutputNodes nodes = .error .keyError :=
  ⟨exSwapM, exSwapM_built, rfl, _, rfl, fun _ => rfl⟩

/-- **C38 fails with measurements.** The classical outputs of a circuit without swaps that measures qubit 1, then qubit 0,
are not left in the order of the gates. -/
theorem C38_classical_order : ∃ c : Circuit, c.Built ∧ c.instrs = [.M 1 .Z, .M 0 .Z] ∧
    ∃ res, transpileSwaps c = .ok res ∧ measuredQubits res.circuit.instrs = [1, 0] ∧
      ∀ a b, res.swapClassicalOutputs [a, b] = .ok [b, a] :=
  ⟨⟨2, [.M 1 .Z, .M 0 .Z], ∅⟩, ⟨2, [.M 1 .Z, .M 0 .Z], Circuit.extend_ok_iff.2
    ⟨by simp [Circuit.listOk, Circuit.instrOk, Instr.after, Circuit.new], rfl⟩⟩, rfl, _, rfl, rfl, fun _ _ => rfl⟩

/-- Three qubits, swaps around a measurement, the last qubit is not affected: `C38_outputs_partial` gives the order. -/
example : ∃ c : Circuit, c.Built ∧ ∃ res, transpileSwaps c = .ok res ∧ res.circuit.active = c.active ∧
    res.circuit.instrs = [.H 1, .M 0 .X, .H 2] ∧ res.outputs = [.bit 0, .qubit 2, .qubit 1] :=
  ⟨⟨3, [.H 1, .M 0 .X, .SWAP 1 2, .H 1], {1, 2}⟩, ⟨3, [.H 1, .M 0 .X, .SWAP 1 2, .H 1], Circuit.extend_ok_iff.2
    ⟨by simp [Circuit.listOk, Circuit.instrOk, Instr.after, Circuit.new], rfl⟩⟩, _, rfl, rfl, rfl, rfl⟩

/-! ### `transpile()` -/

/-- `C37_transpile_default_partial` with the shape of the pattern. -/
theorem transpile_default_full (c : Circuit) (hc : c.Built) (hp : ∀ i ∈ c.instrs, i.Proper ∧ ¬ i.isId) (ord : SetOrd) (hord : ord.Valid)
    (eord : List (ℕ × ℕ) → List (ℕ × ℕ)) (he : EdgeOrd.Valid eord) (nbr : Finset (Sym2 ℕ) → ℕ → List ℕ) (hnbr : NbrOrd.Valid nbr) :
    ∃ sw, transpileSwaps c = .ok sw ∧ (sw.circuit.active ≠ c.active → c.transpile ord eord nbr = .error .keyError) ∧
      (sw.circuit.active = c.active → ∃ res, c.transpile ord eord nbr = .ok res ∧
        (res.pattern.OutputsOk ∧ (∀ n d, Command.S n d ∉ res.pattern.seq) ∧ NoSelfLoop res.pattern.seq) ∧ res.pattern.checkRunnability = .ok () ∧
        res.pattern.inputs = List.range c.width ∧
        ∃ σ : ℕ → ℕ, (∀ q < c.width, ∀ q' < c.width, σ q = σ q' → q = q') ∧
          res.pattern.outputs = (c.active.sort (· ≤ ·)).map σ ∧
          res.classicalOutputs = ((Finset.range c.width \ c.active).sort (· ≤ ·)).map σ ∧
          ∃ k : ℕ, k + res.classicalOutputs.length = (measuredIn res.pattern.seq).length ∧
            ∀ r, OpPhaseEqOn (OnNodes (List.range c.width)) (semCmds r res.pattern.seq) fun ψ =>
            ((1 / (Real.sqrt 2 : ℂ)) ^ k • fun b => semInstrs (fun k => r (((measuredQubits c.instrs).map σ).getD k 0)) 0 c.instrs ψ (b ∘ σ))) := by
  obtain ⟨l', outs, π, h1, h2, h3, h4, -, h5, h5', h6, h7, h8, h9⟩ := swaps_all c hc
  obtain ⟨res, g1, ⟨gO, gS, gE, -⟩, g2, g3, σ, g4, g5, g6, k, gk, g7⟩ := transpile_full _ h2 (h5' hp) ord hord eord he nbr hnbr
  simp only at g3 g4 g5 g6 gk g7
  have hact_lt : ∀ q, q < c.width → π q < c.width := by
    intro q hq
    by_contra hn
    have := h3.fix (π q) (by omega)
    have := π.injective this
    omega
  refine ⟨_, h1, ?_, ?_⟩
  · intro ha
    unfold Circuit.transpile
    rw [h1]
    simp only [bind, Except.bind, g1, h8 ha]
  · intro ha
    simp only at ha
    have hnd : ((c.active.sort (· ≤ ·)).map fun q => σ (π q)).Nodup := by
      refine List.Nodup.map_on ?_ (Finset.sort_nodup _ _)
      intro q hq q' hq' hqq
      rw [Finset.mem_sort] at hq hq'
      exact π.injective (g4 _ (hact_lt _ (h3.act_lt q hq)) _ (hact_lt _ (h3.act_lt q' hq')) hqq)
    have hset : ((c.active.sort (· ≤ ·)).map fun q => σ (π q)).toFinset = res.pattern.outputs.toFinset := by
      ext n
      rw [g5]
      simp
    have hp1 : res.pattern.reorderOutputNodes ((c.active.sort (· ≤ ·)).map fun q => σ (π q)) =
        .ok { res.pattern with outputs := (c.active.sort (· ≤ ·)).map fun q => σ (π q) } := by
      unfold Pattern.reorderOutputNodes
      rw [(assertPermutation_ok_iff _ _).2]
      · rfl
      · first
          | exact ⟨hset, hnd⟩
          | exact ⟨hnd, hset⟩
    refine ⟨⟨{ res.pattern with outputs := (c.active.sort (· ≤ ·)).map fun q => σ (π q) },
      ((Finset.range c.width \ c.active).sort (· ≤ ·)).map fun q => σ (π q)⟩, ?_, ⟨⟨gO.inputs_nodup, hnd, fun n => ?_⟩, gS, gE⟩, ?_, g3, σ ∘ π, ?_, rfl, rfl, k, ?_, ?_⟩
    · unfold Circuit.transpile
      rw [h1]
      simp only [bind, Except.bind, g1]
      rw [g5, h7 ha σ]
      simp only [hp1]
      rw [g6, h9 σ]
      rfl
    · dsimp only
      rw [← List.mem_toFinset, hset, List.mem_toFinset]
      exact gO.outputs n
    · rw [checkRunnability_iff] at g2 ⊢; exact g2
    · intro q hq q' hq' hqq
      exact π.injective (g4 _ (hact_lt q hq) _ (hact_lt q' hq') hqq)
    · rw [← gk, g6, List.length_map, List.length_map]
      congr 1
      have hnd' : (measuredQubits c.instrs).Nodup := by
        rw [List.nodup_iff_injective_getElem]
        intro i j hij
        have hi := h3.bits i _ (List.getElem?_eq_getElem i.2)
        have hj := h3.bits j _ (List.getElem?_eq_getElem j.2)
        simp only at hij
        rw [hij, hj] at hi
        injection hi with hi; injection hi with hi
        exact Fin.ext hi.symm
      rw [Finset.length_sort, h5, List.length_map, ← List.toFinset_card_of_nodup hnd']
      congr 1
      ext q
      rw [List.mem_toFinset, h3.ms_mem]; simp
    · intro r
      have h := g7 r
      rw [g6, h5, List.map_map] at h
      refine h.trans ⟨1, by simp, fun ψ hψ => ?_⟩
      rw [one_smul]
      show (1 / (Real.sqrt 2 : ℂ)) ^ k • _ = (1 / (Real.sqrt 2 : ℂ)) ^ k • _
      congr 1
      funext b
      rw [h6]
      congr 1
      funext n
      simp

/-- **C37** (default arguments). For every circuit built through the API without `I` whose `rzz` gates act on distinct
qubits: let `sw` be the result of `transpile_swaps`. If the circuit without swaps ends with the same active qubits,
`transpile()` succeeds, the pattern is runnable, its inputs are the qubits, its outputs carry the active qubits in
increasing order, the classical outputs carry the measured qubits in increasing order, and in every branch the pattern
does what the circuit does when the measurement of each qubit gives the outcome of its node. Otherwise `transpile()`
raises `KeyError`. -/
theorem C37_transpile_default_partial (c : Circuit) (hc : c.Built) (hp : ∀ i ∈ c.instrs, i.Proper ∧ ¬ i.isId) (ord : SetOrd) (hord : ord.Valid)
    (eord : List (ℕ × ℕ) → List (ℕ × ℕ)) (he : EdgeOrd.Valid eord) (nbr : Finset (Sym2 ℕ) → ℕ → List ℕ) (hnbr : NbrOrd.Valid nbr) :
    ∃ sw, transpileSwaps c = .ok sw ∧ (sw.circuit.active ≠ c.active → c.transpile ord eord nbr = .error .keyError) ∧
      (sw.circuit.active = c.active → ∃ res, c.transpile ord eord nbr = .ok res ∧ res.pattern.checkRunnability = .ok () ∧
        res.pattern.inputs = List.range c.width ∧
        ∃ σ : ℕ → ℕ, (∀ q < c.width, ∀ q' < c.width, σ q = σ q' → q = q') ∧
          res.pattern.outputs = (c.active.sort (· ≤ ·)).map σ ∧
          res.classicalOutputs = ((Finset.range c.width \ c.active).sort (· ≤ ·)).map σ ∧
          ∃ k : ℕ, k + res.classicalOutputs.length = (measuredIn res.pattern.seq).length ∧
            ∀ r, OpPhaseEqOn (OnNodes (List.range c.width)) (semCmds r res.pattern.seq) fun ψ =>
            ((1 / (Real.sqrt 2 : ℂ)) ^ k • fun b => semInstrs (fun k => r (((measuredQubits c.instrs).map σ).getD k 0)) 0 c.instrs ψ (b ∘ σ))) := by
  obtain ⟨sw, h1, h2, h3⟩ := transpile_default_full c hc hp ord hord eord he nbr hnbr
  refine ⟨sw, h1, h2, fun h => ?_⟩
  obtain ⟨res, g1, -, g2⟩ := h3 h
  exact ⟨res, g1, g2⟩

/-- Without measurements, and without swaps, `transpile()` succeeds. -/
theorem C37_transpile_default_no_measure (c : Circuit) (hc : c.Built) (hm : measuredQubits c.instrs = [] ∨ ∀ i ∈ c.instrs, ¬ i.isSwap) :
    ∃ sw, transpileSwaps c = .ok sw ∧ sw.circuit.active = c.active := by
  obtain ⟨l', outs, π, h1, -, h3, -, hπ, -⟩ := swaps_all c hc
  refine ⟨_, h1, ?_⟩
  rcases hm with hm | hm
  · rw [hm] at h3
    have hact : c.active = Finset.range c.width := by
      ext q
      have := h3.ms_mem q
      have h' := h3.act_lt q
      simp only [List.not_mem_nil, false_iff, not_and, not_not] at this
      rw [Finset.mem_range]
      exact ⟨h', this⟩
    refine Finset.eq_of_subset_of_card_le ?_ (by rw [Finset.card_image_of_injective _ π.injective])
    intro n hn
    simp only [Finset.mem_image, hact, Finset.mem_range] at hn ⊢
    obtain ⟨q, hq, rfl⟩ := hn
    by_contra hn
    have := π.injective (h3.fix (π q) (by omega))
    omega
  · simp only [hπ hm]
    ext; simp

/-- A circuit with swaps and no measurement, and one with a measurement before the swap. -/
example : ∃ c : Circuit, c.Built ∧ c.instrs = [.H 0, .SWAP 0 1, .CNOT 0 2, .SWAP 1 2] ∧
    ∃ res, c.transpile exOrd id sortedNbr = .ok res ∧ res.pattern.checkRunnability = .ok () ∧ res.classicalOutputs = [] := by
  have hc : (Circuit.mk 3 [.H 0, .SWAP 0 1, .CNOT 0 2, .SWAP 1 2] {0, 1, 2}).Built := ⟨3, [.H 0, .SWAP 0 1, .CNOT 0 2, .SWAP 1 2],
    Circuit.extend_ok_iff.2 ⟨by simp [Circuit.listOk, Circuit.instrOk, Instr.after, Circuit.new], rfl⟩⟩
  refine ⟨_, hc, rfl, ?_⟩
  obtain ⟨sw, h1, -, h2⟩ := C37_transpile_default_partial _ hc (by simp [Instr.Proper, Instr.isId]) exOrd exOrd_valid id
    idEdgeOrd_valid sortedNbr sortedNbr_valid
  obtain ⟨sw', h1', h3⟩ := C37_transpile_default_no_measure _ hc (Or.inl rfl)
  rw [h1] at h1'; cases h1'
  obtain ⟨res, h4, h5, -, σ, -, -, h6, -⟩ := h2 h3
  have h7 : Finset.range 3 \ {0, 1, 2} = ∅ := by decide
  exact ⟨res, h4, h5, by rw [h6]; simp [h7]⟩

/-- **C37 fails with the default arguments and measurements.** `swap(0, 1); m(0)` is not transpiled (`KeyError`), and the
classical outputs of `m(1); m(0)` are not in the order of the gates: they are the node of qubit 0, then the node of qubit 1. -/
theorem C37_default_measurements (ord : SetOrd) (hord : ord.Valid)
    (eord : List (ℕ × ℕ) → List (ℕ × ℕ)) (he : EdgeOrd.Valid eord) (nbr : Finset (Sym2 ℕ) → ℕ → List ℕ) (hnbr : NbrOrd.Valid nbr) :
    (∃ c : Circuit, c.Built ∧ c.instrs = [.SWAP 0 1, .M 0 .Z] ∧ c.transpile ord eord nbr = .error .keyError) ∧
    ∃ c : Circuit, c.Built ∧ c.instrs = [.M 1 .Z, .M 0 .Z] ∧ ∃ res, c.transpile ord eord nbr = .ok res ∧
      ∃ n0 n1, n0 ≠ n1 ∧ res.classicalOutputs = [n0, n1] ∧ ∃ k : ℕ, ∀ r, OpPhaseEqOn (OnNodes [0, 1]) (semCmds r res.pattern.seq) fun ψ =>
        ((1 / (Real.sqrt 2 : ℂ)) ^ k • semInstrs (fun k => if k = 0 then r n1 else r n0) 0 c.instrs ψ) := by
  refine ⟨⟨exSwapM, exSwapM_built, rfl, ?_⟩, ?_⟩
  · obtain ⟨sw, h1, h2, -⟩ := C37_transpile_default_partial exSwapM exSwapM_built (by simp [exSwapM, Instr.Proper, Instr.isId])
      ord hord eord he nbr hnbr
    apply h2
    have : transpileSwaps exSwapM = .ok ⟨⟨2, [.M 1 .Z], {0}⟩, [.bit 0, .qubit 0]⟩ := rfl
    rw [this] at h1
    cases h1
    decide
  · have hc : (Circuit.mk 2 [.M 1 .Z, .M 0 .Z] ∅).Built := ⟨2, [.M 1 .Z, .M 0 .Z], Circuit.extend_ok_iff.2
      ⟨by simp [Circuit.listOk, Circuit.instrOk, Instr.after, Circuit.new], rfl⟩⟩
    refine ⟨_, hc, rfl, ?_⟩
    obtain ⟨sw, h1, -, h2⟩ := C37_transpile_default_partial _ hc (by simp [Instr.Proper, Instr.isId]) ord hord eord he nbr hnbr
    obtain ⟨sw', h1', h3⟩ := C37_transpile_default_no_measure _ hc (Or.inr (by simp [Instr.isSwap]))
    rw [h1] at h1'; cases h1'
    obtain ⟨res, h4, -, -, σ, hσ, -, h6, k, -, h7⟩ := h2 h3
    have h8 : (Finset.range 2).sort (· ≤ ·) = [0, 1] := by rw [← range_filter_sort (w := 2) (by simp)]; rfl
    refine ⟨res, h4, σ 0, σ 1, fun h => ?_, by rw [h6]; simp [h8], k, ?_⟩
    · have := hσ 0 (by simp) 1 (by simp) h
      omega
    · intro r
      obtain ⟨e, he, h⟩ := h7 r
      refine ⟨e, he, fun ψ hψ => ?_⟩
      rw [h ψ hψ]
      congr 1
      show (1 / (Real.sqrt 2 : ℂ)) ^ k • _ = (1 / (Real.sqrt 2 : ℂ)) ^ k • _
      congr 1
      funext b
      have hd : ∀ x y, ψ (update (update (b ∘ σ) 0 x) 1 y) = ψ (update (update b 0 x) 1 y) := by
        intro x y
        refine hψ _ _ ?_
        simp
      simp [measuredQubits, semInstrs, projOut, hd]

end Graphix
