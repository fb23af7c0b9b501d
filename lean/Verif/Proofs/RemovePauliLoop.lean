import Verif.Proofs.RemovePauliRemove

/-! The loops of the removal of Pauli measurements. -/

namespace Graphix

open Function

/-- `order` enumerates sets. -/
def OrderOk (order : Rpm → Finset ℕ → List ℕ) : Prop := ∀ p s x, x ∈ order p s ↔ x ∈ s

/-- A state in accordance with the invariant. -/
structure Good (sp : StdPattern) (cut : PauliCut) (p : Rpm) (π : Equiv.Perm ℕ) : Prop where
  inv : RInv sp cut p π
  outs : OutsOk sp p π

theorem OrderOk.head_none {order : Rpm → Finset ℕ → List ℕ} (h : OrderOk order) {p : Rpm} {s : Finset ℕ}
    (e : (order p s).head? = none) : s = ∅ := by
  rw [List.head?_eq_none_iff] at e
  rw [Finset.eq_empty_iff_forall_notMem]
  intro x hx
  have := (h p s x).2 hx
  rw [e] at this; cases this

theorem OrderOk.head_some {order : Rpm → Finset ℕ → List ℕ} (h : OrderOk order) {p : Rpm} {s : Finset ℕ} {x : ℕ}
    (e : (order p s).head? = some x) : x ∈ s := (h p s x).1 (List.mem_of_head? e)

theorem removeAxis_ok {sp : StdPattern} {cut : PauliCut} {π : Equiv.Perm ℕ} {order : Rpm → Finset ℕ → List ℕ} (hord : OrderOk order)
    (axis : Axis) (remove : Rpm → ℕ → Sign → Except PyErr Rpm) (Q : Rpm → Rpm → Prop) (hQ : ∀ p, Q p p)
    (hQt : ∀ a b c, Q a b → Q b c → Q a c)
    (hrem : ∀ p, RInv sp cut p π → OutsOk sp p π → ∀ u s, u ∈ p.nodes → u ∉ p.inputs → (p.specs u).pauli = some ⟨axis, s⟩ →
      ∃ p', remove p u s = .ok p' ∧ RInv sp cut p' π ∧ OutsOk sp p' π ∧ Sim sp p π p' π ∧ p'.nodes = p.nodes.erase u ∧ Q p p') :
    ∀ fuel p, RInv sp cut p π → OutsOk sp p π → p.nodes.length ≤ fuel →
      ∃ p', Rpm.removeAxis order axis remove fuel p = .ok p' ∧ RInv sp cut p' π ∧ OutsOk sp p' π ∧ Sim sp p π p' π ∧
        p'.pauli axis = ∅ ∧ Q p p' ∧ p'.nodes.Sublist p.nodes ∧ (p.pauli axis ≠ ∅ → p'.nodes.length < p.nodes.length) ∧
        (p.pauli axis = ∅ → p' = p) := by
  intro fuel
  induction fuel with
  | zero =>
    intro p h ho hf
    unfold Rpm.removeAxis
    cases hh : (order p (p.pauli axis)).head? with
    | none =>
      have := hord.head_none hh
      exact ⟨p, rfl, h, ho, Sim.refl _ _ _, this, hQ p, List.Sublist.refl _, fun h' => absurd this h', fun _ => rfl⟩
    | some x =>
      obtain ⟨n, hn, -⟩ := (h.pauliSet axis x).1 (hord.head_some hh)
      have := List.length_pos_of_mem hn
      omega
  | succ fuel ih =>
    intro p h ho hf
    unfold Rpm.removeAxis
    cases hh : (order p (p.pauli axis)).head? with
    | none =>
      have := hord.head_none hh
      exact ⟨p, rfl, h, ho, Sim.refl _ _ _, this, hQ p, List.Sublist.refl _, fun h' => absurd this h', fun _ => rfl⟩
    | some x =>
      obtain ⟨n, hn, hx, hni, ⟨ax, s⟩, hm, hax⟩ := (h.pauliSet axis x).1 (hord.head_some hh)
      simp only at hax
      subst hax hx
      have hmap : p.nodeMap (π n) = some n := by rw [h.map]; simp [hn]
      obtain ⟨p1, e1, h1, o1, s1, n1, q1⟩ := hrem p h ho n s hn hni hm
      have hlen : p1.nodes.length + 1 = p.nodes.length := by
        rw [n1, List.length_erase_of_mem hn]
        have := List.length_pos_of_mem hn
        omega
      obtain ⟨p2, e2, h2, o2, s2, y2, q2, l2, -, -⟩ := ih p1 h1 o1 (by omega)
      simp only [hmap, hm, bind, Except.bind, e1]
      refine ⟨p2, e2, h2, o2, s1.trans s2, y2, hQt _ _ _ q1 q2, l2.trans (by rw [n1]; exact List.erase_sublist), fun _ => ?_, fun he => ?_⟩
      · have := l2.length_le
        omega
      · have := hord.head_some hh
        rw [he] at this; cases this

theorem removeAllYOrZ_ok {sp : StdPattern} {cut : PauliCut} {p : Rpm} {π : Equiv.Perm ℕ} {order : Rpm → Finset ℕ → List ℕ}
    (hord : OrderOk order) (hc : CutOk sp cut) (h : RInv sp cut p π) (ho : OutsOk sp p π) :
    ∃ p', p.removeAllYOrZ order = .ok p' ∧ RInv sp cut p' π ∧ OutsOk sp p' π ∧ Sim sp p π p' π ∧
      p'.pauli .Y = ∅ ∧ p'.pauli .Z = ∅ ∧ p'.nodes.Sublist p.nodes ∧
      (p.pauli .Y ≠ ∅ ∨ p.pauli .Z ≠ ∅ → p'.nodes.length < p.nodes.length) := by
  obtain ⟨p1, e1, h1, o1, s1, y1, -, l1, d1, f1⟩ := removeAxis_ok hord .Y Rpm.removeY (fun _ _ => True) (fun _ => trivial)
    (fun _ _ _ _ _ => trivial)
    (fun p h ho u s hu hi hm => by
      obtain ⟨p', e, h', o', s', n'⟩ := removeY_ok hc h ho hu hi hm
      exact ⟨p', e, h', o', s', n', trivial⟩) p.nodes.length p h ho le_rfl
  obtain ⟨p2, e2, h2, o2, s2, z2, q2, l2, d2, -⟩ := removeAxis_ok hord .Z Rpm.removeZ (fun p p' => ∀ a, p'.pauli a ⊆ p.pauli a)
    (fun _ _ => subset_rfl) (fun _ _ _ h h' a => (h' a).trans (h a))
    (fun p h ho u s hu hi hm => by
      obtain ⟨p', e, h', o', s', n', q'⟩ := removeZ_ok hc h ho hu hi hm
      exact ⟨p', e, h', o', s', n', q'⟩) p1.nodes.length p1 h1 o1 le_rfl
  refine ⟨p2, ?_, h2, o2, s1.trans s2, ?_, z2, l2.trans l1, ?_⟩
  · unfold Rpm.removeAllYOrZ
    simp only [bind, Except.bind, e1, e2]
  · apply Finset.subset_empty.1; rw [← y1]; exact q2 _
  · intro hne
    have i1 := l1.length_le
    have i2 := l2.length_le
    by_cases hy : p.pauli .Y = ∅
    · have := f1 hy
      subst this
      exact d2 (hne.resolve_left fun h => h hy)
    · have := d1 hy
      omega

theorem RInv.of_set {sp : StdPattern} {cut : PauliCut} {p : Rpm} {π : Equiv.Perm ℕ} (h : RInv sp cut p π) {a : Axis} {x : ℕ}
    (hx : x ∈ p.pauli a) : ∃ n, n ∈ p.nodes ∧ π n = x ∧ n ∉ p.inputs ∧ p.nodeMap x = some n ∧ ∃ s, (p.specs n).pauli = some ⟨a, s⟩ := by
  obtain ⟨n, hn, rfl, hni, ⟨ax, s⟩, hm, rfl⟩ := (h.pauliSet a x).1 hx
  exact ⟨n, hn, rfl, hni, by rw [h.map]; simp [hn], s, hm⟩

theorem RInv.mem_nbrs {sp : StdPattern} {cut : PauliCut} {p : Rpm} {π : Equiv.Perm ℕ} (h : RInv sp cut p π) (u n : ℕ) :
    n ∈ p.nbrs u ↔ p.adj u n = true := by
  unfold Rpm.nbrs; rw [List.mem_filter]
  exact ⟨fun h => h.2, fun h' => ⟨h.simple.mem n u (by rw [h.simple.symm]; exact h'), h'⟩⟩

theorem tryRemoveX_ok {sp : StdPattern} {cut : PauliCut} {p : Rpm} {π : Equiv.Perm ℕ} {order : Rpm → Finset ℕ → List ℕ}
    (hord : OrderOk order) (hc : CutOk sp cut) (h : RInv sp cut p π) (ho : OutsOk sp p π) (l : List ℕ) (hl : ∀ x ∈ l, x ∈ p.pauli .X) :
    (p.tryRemoveX order l = .ok none ∧ ∀ n ∈ p.nodes, π n ∈ l → ∀ k, p.adj n k = true → k ∈ p.inputs ∨ k ∈ p.outputs) ∨
    ∃ p' π', p.tryRemoveX order l = .ok (some p') ∧ RInv sp cut p' π' ∧ OutsOk sp p' π' ∧ Sim sp p π p' π' ∧
      p'.nodes.Sublist p.nodes ∧ p'.nodes.length < p.nodes.length := by
  induction l with
  | nil => left; exact ⟨rfl, fun _ _ h => by cases h⟩
  | cons x l ih =>
    obtain ⟨n, hn, hx, hni, hmap, s, hm⟩ := h.of_set (hl x (by simp))
    unfold Rpm.tryRemoveX
    simp only [hmap]
    cases hh : (order p (((p.nbrs n).toFinset \ p.inputs) \ p.outputs)).head? with
    | none =>
      have he := hord.head_none hh
      simp only
      refine (ih fun y hy => hl y (by simp [hy])).imp (fun h' => ⟨h'.1, ?_⟩) id
      intro n' hn' hx' k hk
      rcases List.mem_cons.1 hx' with e | e
      · have : n' = n := π.injective (e.trans hx.symm)
        subst this
        by_contra hcon
        push Not at hcon
        have : k ∈ ((p.nbrs n').toFinset \ p.inputs) \ p.outputs := by
          simp only [Finset.mem_sdiff, List.mem_toFinset, h.mem_nbrs]
          exact ⟨⟨hk, hcon.1⟩, hcon.2⟩
        rw [he] at this; cases this
      · exact h'.2 n' hn' e k hk
    | some v =>
      have hv := hord.head_some hh
      simp only [Finset.mem_sdiff, List.mem_toFinset, h.mem_nbrs] at hv
      obtain ⟨p', e, h', o', s', n'⟩ := removeX_ok hc h ho hv.1.1 hni hv.1.2 hm
      right
      simp only [hm, e, bind, Except.bind]
      refine ⟨p', _, rfl, h', o', s', by rw [n']; exact List.erase_sublist, ?_⟩
      have hvn := h.simple.mem v n (by rw [h.simple.symm]; exact hv.1.1)
      rw [n', List.length_erase_of_mem hvn]
      have := List.length_pos_of_mem hvn
      omega

theorem tryPivotX_ok {sp : StdPattern} {cut : PauliCut} {p : Rpm} {π : Equiv.Perm ℕ} {order : Rpm → Finset ℕ → List ℕ}
    (hord : OrderOk order) (h : RInv sp cut p π) (ho : OutsOk sp p π) (l : List ℕ) (hl : ∀ x ∈ l, x ∈ p.pauli .X) :
    (p.tryPivotX order l = .ok none ∧ ∀ n ∈ p.nodes, π n ∈ l → ∀ k, p.adj n k = true → k ∈ p.outputs → k ∈ p.inputs) ∨
    ∃ p' π', p.tryPivotX order l = .ok (some p') ∧ RInv sp cut p' π' ∧ OutsOk sp p' π' ∧ Sim sp p π p' π' ∧
      p'.nodes = p.nodes ∧ p'.pauli .Z ≠ ∅ := by
  induction l with
  | nil => left; exact ⟨rfl, fun _ _ h => by cases h⟩
  | cons x l ih =>
    obtain ⟨n, hn, hx, hni, hmap, s, hm⟩ := h.of_set (hl x (by simp))
    unfold Rpm.tryPivotX
    simp only [hmap]
    cases hh : (order p ((p.nbrs n).toFinset ∩ (p.outputs \ p.inputs))).head? with
    | none =>
      have he := hord.head_none hh
      simp only
      refine (ih fun y hy => hl y (by simp [hy])).imp (fun h' => ⟨h'.1, ?_⟩) id
      intro n' hn' hx' k hk hko
      rcases List.mem_cons.1 hx' with e | e
      · have : n' = n := π.injective (e.trans hx.symm)
        subst this
        by_contra hcon
        have : k ∈ (p.nbrs n').toFinset ∩ (p.outputs \ p.inputs) := by
          simp only [Finset.mem_inter, Finset.mem_sdiff, List.mem_toFinset, h.mem_nbrs]
          exact ⟨hk, hko, hcon⟩
        rw [he] at this; cases this
      · exact h'.2 n' hn' e k hk hko
    | some v =>
      have hv := hord.head_some hh
      simp only [Finset.mem_inter, Finset.mem_sdiff, List.mem_toFinset, h.mem_nbrs] at hv
      obtain ⟨p', e, h', o', s', n', i', m'⟩ := pivotEdge_ok h ho hv.1 hni hv.2.2
      right
      simp only [e, bind, Except.bind]
      refine ⟨p', _, rfl, h', o', s', n', ?_⟩
      have hvn := h.simple.mem v n (by rw [h.simple.symm]; exact hv.1)
      have : ((Equiv.swap n v).trans π) v ∈ p'.pauli .Z := by
        rw [h'.pauliSet]
        refine ⟨v, by rw [n']; exact hvn, rfl, by rw [i']; exact hv.2.2, ⟨.Z, s⟩, ?_, rfl⟩
        rw [m', hm]
        cases s <;> decide
      intro he
      rw [he] at this; cases this

/-- What holds when the main loop ends. -/
structure LoopEnd (p : Rpm) (π : Equiv.Perm ℕ) : Prop where
  noY : p.pauli .Y = ∅
  noZ : p.pauli .Z = ∅
  onlyInputs : ∀ n ∈ p.nodes, π n ∈ p.pauli .X → ∀ k, p.adj n k = true → k ∈ p.inputs

theorem mainLoop_ok {sp : StdPattern} {cut : PauliCut} {order : Rpm → Finset ℕ → List ℕ} (hord : OrderOk order) (hc : CutOk sp cut) :
    ∀ (fuel : ℕ) {p : Rpm} {π : Equiv.Perm ℕ}, RInv sp cut p π → OutsOk sp p π →
    (p.nodes.length ≤ fuel ∨ (p.nodes.length ≤ fuel + 1 ∧ (p.pauli .Y ≠ ∅ ∨ p.pauli .Z ≠ ∅))) →
    ∃ p' π', Rpm.mainLoop order fuel p = .ok p' ∧ RInv sp cut p' π' ∧ OutsOk sp p' π' ∧ Sim sp p π p' π' ∧ LoopEnd p' π' ∧
      p'.nodes.Sublist p.nodes := by
  intro fuel
  induction fuel with
  | zero =>
    intro p π h ho hf
    obtain ⟨p1, e1, h1, o1, s1, y1, z1, l1, d1⟩ := removeAllYOrZ_ok hord hc h ho
    have hlen : p1.nodes.length ≤ 0 := by
      have := l1.length_le
      rcases hf with hf | ⟨hf, hf'⟩
      · omega
      · have := d1 hf'; omega
    have hX : ∀ x ∈ order p1 (p1.pauli .X), x ∈ p1.pauli .X := fun x hx => (hord _ _ _).1 hx
    have hnil : order p1 (p1.pauli .X) = [] := by
      rw [List.eq_nil_iff_forall_not_mem]
      intro x hx
      obtain ⟨n, hn, -⟩ := h1.of_set (hX x hx)
      have := List.length_pos_of_mem hn
      omega
    unfold Rpm.mainLoop
    simp only [bind, Except.bind, e1, hnil, Rpm.tryRemoveX, Rpm.tryPivotX]
    refine ⟨p1, π, rfl, h1, o1, s1, ⟨y1, z1, fun n hn => ?_⟩, l1⟩
    have := List.length_pos_of_mem hn
    omega
  | succ fuel ih =>
    intro p π h ho hf
    obtain ⟨p1, e1, h1, o1, s1, y1, z1, l1, d1⟩ := removeAllYOrZ_ok hord hc h ho
    have hlen : p1.nodes.length ≤ fuel + 1 := by
      have := l1.length_le
      rcases hf with hf | ⟨hf, hf'⟩
      · omega
      · have := d1 hf'; omega
    have hX : ∀ x ∈ order p1 (p1.pauli .X), x ∈ p1.pauli .X := fun x hx => (hord _ _ _).1 hx
    rcases tryRemoveX_ok hord hc h1 o1 _ hX with ⟨e2, hend⟩ | ⟨p2, π2, e2, h2, o2, s2, l2, d2⟩
    · rcases tryPivotX_ok hord h1 o1 _ hX with ⟨e3, hend'⟩ | ⟨p3, π3, e3, h3, o3, s3, n3, z3⟩
      · refine ⟨p1, π, ?_, h1, o1, s1, ⟨y1, z1, fun n hn hnx k hk => ?_⟩, l1⟩
        · unfold Rpm.mainLoop
          simp only [bind, Except.bind, e1, e2, e3]
        · have hm := (hord p1 (p1.pauli .X) (π n)).2 hnx
          rcases hend n hn hm k hk with h' | h'
          · exact h'
          · exact hend' n hn hm k hk h'
      · obtain ⟨p4, π4, e4, h4, o4, s4, end4, l4⟩ := ih h3 o3 (.inr ⟨by rw [n3]; exact hlen, .inr z3⟩)
        refine ⟨p4, π4, ?_, h4, o4, s1.trans (s3.trans s4), end4, l4.trans (by rw [n3]; exact l1)⟩
        unfold Rpm.mainLoop
        simp only [bind, Except.bind, e1, e2, e3]
        exact e4
    · obtain ⟨p4, π4, e4, h4, o4, s4, end4, l4⟩ := ih h2 o2 (.inl (by omega))
      refine ⟨p4, π4, ?_, h4, o4, s1.trans (s2.trans s4), end4, l4.trans (l2.trans l1)⟩
      unfold Rpm.mainLoop
      simp only [bind, Except.bind, e1, e2]
      exact e4

end Graphix
