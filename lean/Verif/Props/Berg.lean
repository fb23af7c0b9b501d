import Verif.Proofs.Berg

/-!
# C48: Clifford synthesis

`PauliString.op` is the operator of a signed Pauli string (`Spec/Pauli.lean`), `gates l` the unitary of a list of gates.
-/

namespace Graphix

open Function

namespace Berg

/-- **C48.** The column updates of the tableau for H, S, CNOT and SWAP: for every row, the signed Pauli string that the
updated row encodes is the conjugate `U P U†` of the Pauli string that the row encodes (stated as `U P = P' U`). -/
theorem C48_tableau_updates (n : ℕ) (s : St) (r : ℕ) (p : PauliString) (hp : PauliString.fromTableau (2 * n + 1) (s.tab r) = .ok p) :
    (∀ q < n, ∃ p', PauliString.fromTableau (2 * n + 1) ((addH n s q).tab r) = .ok p' ∧
      ∀ ψ, op1 Ops.H q (p.op ψ) = p'.op (op1 Ops.H q ψ)) ∧
    (∀ q < n, ∃ p', PauliString.fromTableau (2 * n + 1) ((addS n s q).tab r) = .ok p' ∧
      ∀ ψ, op1 Ops.S q (p.op ψ) = p'.op (op1 Ops.S q ψ)) ∧
    (∀ c < n, ∀ t < n, c ≠ t → ∃ p', PauliString.fromTableau (2 * n + 1) ((addCnot n s c t).tab r) = .ok p' ∧
      ∀ ψ, cnotOp c t (p.op ψ) = p'.op (cnotOp c t ψ)) ∧
    (∀ u < n, ∀ v < n, u ≠ v → ∃ p', PauliString.fromTableau (2 * n + 1) ((addSwap n s u v).tab r) = .ok p' ∧
      ∀ ψ, swapOp u v (p.op ψ) = p'.op (swapOp u v ψ)) := by
  have ex : ∀ t, ∃ p, PauliString.fromTableau (2 * n + 1) t = .ok p := fun t =>
    let ⟨p, _, h, _⟩ := PauliString.C47_tableau_roundtrip' n t
    ⟨p, h⟩
  refine ⟨fun q hq => ?_, fun q hq => ?_, fun c hc t ht hct => ?_, fun u hu v hv huv => ?_⟩
  · obtain ⟨p', hp'⟩ := ex ((addH n s q).tab r)
    refine ⟨p', hp', fun ψ => ?_⟩
    rw [PauliString.op_fromTableau hp, PauliString.op_fromTableau hp', rowOp_H hq]
  · obtain ⟨p', hp'⟩ := ex ((addS n s q).tab r)
    refine ⟨p', hp', fun ψ => ?_⟩
    rw [PauliString.op_fromTableau hp, PauliString.op_fromTableau hp', rowOp_S hq]
  · obtain ⟨p', hp'⟩ := ex ((addCnot n s c t).tab r)
    refine ⟨p', hp', fun ψ => ?_⟩
    rw [PauliString.op_fromTableau hp, PauliString.op_fromTableau hp', rowOp_CNOT hc ht hct]
  · obtain ⟨p', hp'⟩ := ex ((addSwap n s u v).tab r)
    refine ⟨p', hp', fun ψ => ?_⟩
    rw [PauliString.op_fromTableau hp, PauliString.op_fromTableau hp', rowOp_SWAP hu hv huv]

theorem listOk_of_gates {n : ℕ} {a : Finset ℕ} (ha : Finset.range n ⊆ a) (l : List Instr)
    (h : ∀ i ∈ l, i.isGate ∧ Circuit.instrOk (Finset.range n) i = true) : Circuit.listOk a l ∧ Circuit.afterList a l = a := by
  have mono : ∀ i, Circuit.instrOk (Finset.range n) i = true → Circuit.instrOk a i = true := by
    intro i hi
    have ha' : ∀ {x}, x < n → x ∈ a := fun hx => ha (Finset.mem_range.2 hx)
    cases i <;> simp only [Circuit.instrOk, decide_eq_true_eq, Finset.mem_range] at hi ⊢ <;>
      first
        | exact ha' hi
        | exact ⟨ha' hi.1, ha' hi.2.1, ha' hi.2.2.1, hi.2.2.2⟩
        | exact ⟨ha' hi.1, ha' hi.2.1, hi.2.2⟩
        | exact ⟨ha' hi.1, ha' hi.2⟩
  induction l with
  | nil => exact ⟨trivial, rfl⟩
  | cons i l ih =>
    obtain ⟨h1, h2⟩ := h i (by simp)
    have : i.after a = a := by cases i <;> first | rfl | exact h1.elim
    obtain ⟨h3, h4⟩ := ih fun j hj => h j (by simp [hj])
    refine ⟨⟨mono i h2, by rwa [this]⟩, ?_⟩
    simp only [Circuit.afterList, this, h4]

/-- **C48.** `cm_berg_pass` succeeds on every Clifford map with the commutation relations of the generators, and the
gates that it appends to the circuit implement the map: `U X_q U† = x_map[q]` and `U Z_q U† = z_map[q]`, with signs. -/
theorem C48_berg_pass (cm : CliffordMap) (n : ℕ) (hn : 0 < n) (hcm : cm.Valid n) (c : Circuit) (hc : Finset.range n ⊆ c.active) :
    ∃ l, bergPass cm c = .ok ⟨c.width, c.instrs ++ l, c.active⟩ ∧ (∀ i ∈ l, i.isGate ∧ Circuit.instrOk (Finset.range n) i = true) ∧
      (∀ (q : ℕ) p, cm.xMap[q]? = some p → ∀ ψ, gates l (op1 Ops.X q ψ) = p.op (gates l ψ)) ∧
      ∀ (q : ℕ) p, cm.zMap[q]? = some p → ∀ ψ, gates l (op1 Ops.Z q ψ) = p.op (gates l ψ) := by
  obtain ⟨sh, tab, h1, h2, h3⟩ := toTableau_spec hcm hn
  have hs := sympl_of_valid hcm h2 h3
  obtain ⟨s, h4, h5⟩ := processAll_spec hs n 0 ⟨tab, []⟩ ⟨Good.init n tab, by simp, by simp⟩ (by omega)
  obtain ⟨f1, f2, f3⟩ := final_spec h5
  have hlt : ∀ {l : List PauliString} {q : ℕ} {p}, l.length = n → l[q]? = some p → q < n := by
    intro l q p hl hp
    rw [← hl]
    exact (List.getElem?_eq_some_iff.1 hp).1
  obtain ⟨o1, o2⟩ := listOk_of_gates hc _ f1
  refine ⟨(correctSigns n s).reverse, ?_, f1, ?_, ?_⟩
  · unfold bergPass
    simp only [h1, bind, Except.bind, hcm.outputs]
    rw [if_neg (by rw [hcm.inputs]; simp), List.range_eq_range', h4]
    show c.extend (correctSigns n s).reverse = _
    rw [Circuit.extend_ok_iff]
    exact ⟨o1, by rw [o2]⟩
  · intro q p hp ψ
    rw [f2 q (hlt hcm.xlen hp), h2 q p hp]
  · intro q p hp ψ
    rw [f3 q (hlt hcm.zlen hp), h3 q p hp]

/-- Without qubits the pass raises: `np.vstack` of an empty list. -/
theorem C48_no_qubits (c : Circuit) : bergPass ⟨[], [], [], []⟩ c = .error .valueError := rfl

/-! ### An example -/

theorem comm_of_symp {p q : PauliString} {n : ℕ} {t t' : ℕ → ZMod 2} (hp : p.Valid) (hq : q.Valid) (dp : p.dim = n) (dq : q.dim = n)
    (ht : p.toTableau = .ok t) (ht' : q.toTableau = .ok t') (ψ : QState) : p.op (q.op ψ) = sg2 (symp n t t') • q.op (p.op ψ) := by
  subst dp
  rw [PauliString.op_toTableau hp ht, PauliString.op_toTableau hp ht, PauliString.op_toTableau hq ht', PauliString.op_toTableau hq ht', dq, rowOp_comm]

/-- `X₀ ↦ X₀X₁`, `X₁ ↦ -X₁`, `Z₀ ↦ -Y₀`, `Z₁ ↦ Y₀Z₁`: a map that is not a permutation of the generators. -/
def exMap : CliffordMap where
  xMap := [⟨2, [(0, .X), (1, .X)], .plus⟩, ⟨2, [(1, .X)], .minus⟩]
  zMap := [⟨2, [(0, .Y)], .minus⟩, ⟨2, [(0, .Y), (1, .Z)], .plus⟩]
  inputs := [0, 1]
  outputs := [2, 3]

example : exMap.Valid 2 := by
  have v1 : (⟨2, [(0, .X), (1, .X)], .plus⟩ : PauliString).Valid := ⟨by decide, by decide⟩
  have v2 : (⟨2, [(1, .X)], .minus⟩ : PauliString).Valid := ⟨by decide, by decide⟩
  have v3 : (⟨2, [(0, .Y)], .minus⟩ : PauliString).Valid := ⟨by decide, by decide⟩
  have v4 : (⟨2, [(0, .Y), (1, .Z)], .plus⟩ : PauliString).Valid := ⟨by decide, by decide⟩
  have C : ∀ {p q : PauliString} {t t'}, p.Valid → q.Valid → p.dim = 2 → q.dim = 2 → p.toTableau = .ok t → q.toTableau = .ok t' →
      symp 2 t t' = 0 → Commute' p.op q.op := by
    intro p q t t' h1 h2 h3 h4 h5 h6 h7 ψ
    rw [comm_of_symp h1 h2 h3 h4 h5 h6, h7, sg2_zero, one_smul]
  have A : ∀ {p q : PauliString} {t t'}, p.Valid → q.Valid → p.dim = 2 → q.dim = 2 → p.toTableau = .ok t → q.toTableau = .ok t' →
      symp 2 t t' = 1 → Anticommute p.op q.op := by
    intro p q t t' h1 h2 h3 h4 h5 h6 h7 ψ
    rw [comm_of_symp h1 h2 h3 h4 h5 h6, h7, sg2_one, neg_one_smul]
  refine ⟨rfl, rfl, rfl, rfl, ?_, ?_, ?_, ?_, ?_⟩
  · simp only [exMap, List.mem_cons, List.not_mem_nil, or_false]
    rintro p (rfl | rfl)
    exacts [⟨v1, rfl⟩, ⟨v2, rfl⟩]
  · simp only [exMap, List.mem_cons, List.not_mem_nil, or_false]
    rintro p (rfl | rfl)
    exacts [⟨v3, rfl⟩, ⟨v4, rfl⟩]
  · simp only [exMap, List.mem_cons, List.not_mem_nil, or_false]
    rintro p (rfl | rfl) q (rfl | rfl)
    · exact C v1 v1 rfl rfl rfl rfl (by decide)
    · exact C v1 v2 rfl rfl rfl rfl (by decide)
    · exact C v2 v1 rfl rfl rfl rfl (by decide)
    · exact C v2 v2 rfl rfl rfl rfl (by decide)
  · simp only [exMap, List.mem_cons, List.not_mem_nil, or_false]
    rintro p (rfl | rfl) q (rfl | rfl)
    · exact C v3 v3 rfl rfl rfl rfl (by decide)
    · exact C v3 v4 rfl rfl rfl rfl (by decide)
    · exact C v4 v3 rfl rfl rfl rfl (by decide)
    · exact C v4 v4 rfl rfl rfl rfl (by decide)
  · intro i j p q hp hq
    match i, j with
    | 0, 0 => cases hp; cases hq; exact A v1 v3 rfl rfl rfl rfl (by decide)
    | 0, 1 => cases hp; cases hq; exact C v1 v4 rfl rfl rfl rfl (by decide)
    | 1, 0 => cases hp; cases hq; exact C v2 v3 rfl rfl rfl rfl (by decide)
    | 1, 1 => cases hp; cases hq; exact A v2 v4 rfl rfl rfl rfl (by decide)
    | i + 2, _ => simp [exMap] at hp
    | 0, j + 2 => simp [exMap] at hq
    | 1, j + 2 => simp [exMap] at hq

end Berg
end Graphix
