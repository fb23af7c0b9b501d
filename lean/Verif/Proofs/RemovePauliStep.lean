import Verif.Proofs.RemovePauli

/-! The rewriting steps of the removal of Pauli measurements preserve the meaning. -/

namespace Graphix

open Function

/-- The state `p'` describes the same states as `p`, up to a phase, in the branches where the removed measurements
have outcome 0. -/
def Sim (sp : StdPattern) (p : Rpm) (π : Equiv.Perm ℕ) (p' : Rpm) (π' : Equiv.Perm ℕ) : Prop :=
  (∀ w, p.nodeMap w = none → p'.nodeMap w = none) ∧
  ∀ r : ℕ → Bool, (∀ w, p'.nodeMap w = none → r w = false) →
    ∃ c : ℂ, ‖c‖ = 1 ∧ ∀ ψ, sp.InOk ψ → ren π (p.val sp r ψ) = c • ren π' (p'.val sp r ψ)

theorem Sim.trans {sp : StdPattern} {p p' p'' : Rpm} {π π' π'' : Equiv.Perm ℕ} (h : Sim sp p π p' π')
    (h' : Sim sp p' π' p'' π'') : Sim sp p π p'' π'' := by
  refine ⟨fun w hw => h'.1 w (h.1 w hw), fun r hr => ?_⟩
  obtain ⟨c, hc, e⟩ := h.2 r fun w hw => hr w (h'.1 w hw)
  obtain ⟨d, hd, e'⟩ := h'.2 r hr
  refine ⟨c * d, by simp [hc, hd], fun ψ hψ => ?_⟩
  rw [e ψ hψ, e' ψ hψ, smul_smul]

theorem Sim.refl (sp : StdPattern) (p : Rpm) (π : Equiv.Perm ℕ) : Sim sp p π p π :=
  ⟨fun _ h => h, fun _ _ => ⟨1, by simp, fun ψ _ => by simp⟩⟩

theorem applyCliffords_ok {sp : StdPattern} {cut : PauliCut} {π : Equiv.Perm ℕ} (C : Clifford) (l : List ℕ) (hl : l.Nodup) :
    ∀ {p : Rpm}, RInv sp cut p π → (∀ n ∈ l, n ∈ p.nodes) →
    ∃ p', p.applyCliffords l C = .ok p' ∧ RInv sp cut p' π ∧ Applied sp p p' (fun i => if i ∈ l then C else .I) := by
  induction l with
  | nil =>
    intro p h _
    exact ⟨p, rfl, h, (Applied.refl sp p).congr fun n => by simp⟩
  | cons a l ih =>
    intro p h hm
    rw [List.nodup_cons] at hl
    obtain ⟨p1, e1, h1, a1⟩ := applyClifford_ok h (hm a (by simp)) C
    obtain ⟨p2, e2, h2, a2⟩ := ih hl.2 h1 fun n hn => by rw [a1.nodes]; exact hm n (by simp [hn])
    refine ⟨p2, ?_, h2, (a1.trans a2).congr fun n => ?_⟩
    · unfold Rpm.applyCliffords at e2 ⊢
      rw [List.foldlM_cons, e1]; exact e2
    · by_cases e : n = a
      · subst e; simp [hl.1, Clifford.mul_I]
      · simp [e, Clifford.I_mul]

theorem complementSubgraph_eq {adj : ℕ → ℕ → Bool} {l : List ℕ} (h : SimpleOn adj l) (u : ℕ) :
    complementSubgraph adj (l.filter (adj u)) = locComp adj u := by
  funext x y
  unfold complementSubgraph locComp
  have hm : ∀ x, x ∈ l.filter (adj u) ↔ adj u x = true := by
    intro x
    rw [List.mem_filter]
    exact ⟨fun h => h.2, fun h' => ⟨h.mem x u (by rw [h.symm]; exact h'), h'⟩⟩
  simp only [hm]

theorem RInv.setAdj {sp : StdPattern} {cut : PauliCut} {p : Rpm} {π : Equiv.Perm ℕ} (h : RInv sp cut p π) {adj : ℕ → ℕ → Bool}
    (hs : SimpleOn adj p.nodes) : RInv sp cut { p with adj := adj } π :=
  ⟨hs, h.src, h.map, h.fix, h.inputs, h.inpMem, h.mem, h.pauliSpec, h.pauliSet, h.dom, h.domM⟩

theorem RInv.prepared {sp : StdPattern} {cut : PauliCut} {p : Rpm} {π : Equiv.Perm ℕ} (h : RInv sp cut p π) {u : ℕ}
    (hu : u ∈ p.nodes) (hi : u ∉ p.inputs) : u ∈ (sp.nList.map Prod.fst).toFinset := by
  have := h.mem u hu
  unfold StdPattern.nodeList at this
  rw [h.inputs, List.mem_toFinset] at hi
  rw [List.mem_toFinset]
  exact (List.mem_append.1 this).resolve_left hi

/-- Changing the graph and the local gates together. -/
theorem Applied.sim {sp : StdPattern} {p p' : Rpm} {π : Equiv.Perm ℕ} {adj : ℕ → ℕ → Bool} {K : ℕ → Clifford}
    (hnd : p.nodes.Nodup) (h : Applied sp { p with adj := adj } p' K)
    (he : ∃ c : ℂ, ‖c‖ = 1 ∧ ∀ ψ, sp.InOk ψ → entangleAll p.adj p.nodes ψ =
      c • locOps (fun n => (K n).matrix) p.nodes (entangleAll adj p.nodes ψ)) : Sim sp p π p' π := by
  refine ⟨fun w hw => by rw [h.nodeMap]; exact hw, fun r _ => ?_⟩
  obtain ⟨c, hc, e⟩ := he
  obtain ⟨d, hd, e'⟩ := (h.val hnd r).symm
  refine ⟨c * d, by simp [hc, hd], fun ψ hψ => ?_⟩
  have h1 : p.val sp r ψ = (c * d) • p'.val sp r ψ := by
    have h2 := e' ψ
    beta_reduce at h2
    change locOps (fun n => sp.specOp r (p.specs n)) p.nodes (locOps (fun n => (K n).matrix) p.nodes (entangleAll adj p.nodes ψ)) = _ at h2
    unfold Rpm.val at h2 ⊢
    rw [e ψ hψ, locOps_homog, h2, smul_smul]
  rw [h1, ren_smul]

theorem localComplement_ok {sp : StdPattern} {cut : PauliCut} {p : Rpm} {π : Equiv.Perm ℕ} (h : RInv sp cut p π) {u : ℕ}
    (hu : u ∈ p.nodes) (hi : u ∉ p.inputs) :
    ∃ p', p.localComplement u = .ok p' ∧ RInv sp cut p' π ∧
      Applied sp { p with adj := locComp p.adj u } p' (lcK p.adj u) ∧ Sim sp p π p' π := by
  have h0 : RInv sp cut { p with adj := locComp p.adj u } π := h.setAdj (locComp_simple h.simple u)
  obtain ⟨p1, e1, h1, a1⟩ := applyClifford_ok h0 hu ((Clifford.H.mul Clifford.SDG).mul Clifford.H)
  obtain ⟨p2, e2, h2, a2⟩ := applyCliffords_ok Clifford.S (p.nbrs u) (h.simple.nodup.filter _) h1 (by
    intro n hn; rw [a1.nodes]; exact (List.mem_filter.1 hn).1)
  have a3 : Applied sp { p with adj := locComp p.adj u } p2 (lcK p.adj u) := by
    refine (a1.trans a2).congr fun n => ?_
    unfold lcK
    have hm : n ∈ p.nbrs u ↔ p.adj u n = true := by
      unfold Rpm.nbrs; rw [List.mem_filter]
      exact ⟨fun h => h.2, fun h' => ⟨h.simple.mem n u (by rw [h.simple.symm]; exact h'), h'⟩⟩
    by_cases e : n = u
    · subst e; simp [hm, h.simple.irrefl, Clifford.mul_I]
    · simp only [e, if_false, hm]
      rw [Clifford.I_mul]
  refine ⟨p2, ?_, h2, a3, a3.sim h.simple.nodup ?_⟩
  · unfold Rpm.localComplement
    simp only [bind, Except.bind]
    rw [show complementSubgraph p.adj (p.nbrs u) = locComp p.adj u from complementSubgraph_eq h.simple u, e1]
    exact e2
  · obtain ⟨c, hc, e⟩ := ent_lc_on h.simple hu
    exact ⟨c, hc, fun ψ hψ => e ψ (hψ.noBit (h.prepared hu hi))⟩

/-! ### Pivot -/

/-- The adjacency computed by `pivot_edge`, in terms of the pivot that swaps the neighbourhoods. -/
theorem pivot_adj {adj : ℕ → ℕ → Bool} {l : List ℕ} (h : SimpleOn adj l) {u v : ℕ} (huv : adj u v = true) (x y : ℕ) :
    let nu := (l.filter (adj u)).toFinset
    let nv := (l.filter (adj v)).toFinset
    let inter := nu ∩ nv
    let onlyU := (nu \ inter) \ {v}
    let onlyV := (nv \ inter) \ {u}
    complementEdges (complementEdges (complementEdges adj onlyU onlyV) onlyU inter) onlyV inter x y =
      pivotSwap adj u v (Equiv.swap u v x) (Equiv.swap u v y) := by
  intro nu nv inter onlyU onlyV
  have hne : u ≠ v := by rintro rfl; rw [h.irrefl] at huv; cases huv
  have hvu : adj v u = true := by rw [h.symm]; exact huv
  have hm : ∀ w x, x ∈ (l.filter (adj w)).toFinset ↔ adj w x = true := by
    intro w x
    rw [List.mem_toFinset, List.mem_filter]
    exact ⟨fun h => h.2, fun h' => ⟨h.mem x w (by rw [h.symm]; exact h'), h'⟩⟩
  have mI : ∀ x, x ∈ inter ↔ (adj u x = true ∧ adj v x = true) := by
    intro x; simp only [inter, nu, nv, Finset.mem_inter, hm]
  have mU : ∀ x, x ∈ onlyU ↔ (adj u x = true ∧ adj v x = false ∧ x ≠ v) := by
    intro x
    simp only [onlyU, Finset.mem_sdiff, Finset.mem_singleton, mI]
    simp only [nu, hm]
    cases adj u x <;> cases adj v x <;> simp
  have mV : ∀ x, x ∈ onlyV ↔ (adj v x = true ∧ adj u x = false ∧ x ≠ u) := by
    intro x
    simp only [onlyV, Finset.mem_sdiff, Finset.mem_singleton, mI]
    simp only [nv, hm]
    cases adj u x <;> cases adj v x <;> simp
  unfold complementEdges pivotSwap
  simp only [mI, mU, mV, Equiv.swap_apply_self]
  have hxu : Equiv.swap u v x = u ↔ x = v := by rw [Equiv.swap_apply_eq_iff, Equiv.swap_apply_left]
  have hxv : Equiv.swap u v x = v ↔ x = u := by rw [Equiv.swap_apply_eq_iff, Equiv.swap_apply_right]
  have hyu : Equiv.swap u v y = u ↔ y = v := by rw [Equiv.swap_apply_eq_iff, Equiv.swap_apply_left]
  have hyv : Equiv.swap u v y = v ↔ y = u := by rw [Equiv.swap_apply_eq_iff, Equiv.swap_apply_right]
  simp only [hxu, hxv, hyu, hyv]
  by_cases hc : x = v ∨ x = u ∨ y = v ∨ y = u
  · rw [if_pos hc]
    rcases hc with rfl | rfl | rfl | rfl <;>
      simp [huv, hvu, h.irrefl, hne, hne.symm]
  · rw [if_neg hc]
    push Not at hc
    obtain ⟨h1, h2, h3, h4⟩ := hc
    rw [Equiv.swap_apply_of_ne_of_ne h2 h1, Equiv.swap_apply_of_ne_of_ne h4 h3]
    by_cases hxy : x = y
    · subst hxy
      cases adj u x <;> cases adj v x <;> simp [h.irrefl]
    · simp only [h1, h2, h3, h4, hxy, if_false]
      cases adj u x <;> cases adj v x <;> cases adj u y <;> cases adj v y <;> cases adj x y <;> simp [h1, h2, h3, h4]

theorem swap_mem {l : List ℕ} {u v : ℕ} (hu : u ∈ l) (hv : v ∈ l) (n : ℕ) : Equiv.swap u v n ∈ l ↔ n ∈ l := by
  by_cases h1 : n = u
  · subst h1; simp [hu, hv]
  · by_cases h2 : n = v
    · subst h2; simp [hu, hv]
    · rw [Equiv.swap_apply_of_ne_of_ne h1 h2]

theorem map_swap_perm {l : List ℕ} (hl : l.Nodup) {u v : ℕ} (hu : u ∈ l) (hv : v ∈ l) : (l.map (Equiv.swap u v)).Perm l := by
  rw [List.perm_ext_iff_of_nodup (hl.map (Equiv.injective _)) hl]
  intro n
  rw [List.mem_map]
  constructor
  · rintro ⟨m, hm, rfl⟩; exact (swap_mem hu hv m).2 hm
  · intro h; exact ⟨Equiv.swap u v n, (swap_mem hu hv n).2 h, Equiv.swap_apply_self u v n⟩

/-- The state of `pivot_edge` after the update of the graph and the exchange of the annotations. -/
def Rpm.swapped (p : Rpm) (u v : ℕ) : Rpm :=
  { p with
    adj := fun x y => pivotSwap p.adj u v (Equiv.swap u v x) (Equiv.swap u v y)
    specs := fun n => p.specs (Equiv.swap u v n)
    nodeMap := fun w => if w = (p.specs v).src then some u else if w = (p.specs u).src then some v else p.nodeMap w }

theorem swapped_inv {sp : StdPattern} {cut : PauliCut} {p : Rpm} {π : Equiv.Perm ℕ} (h : RInv sp cut p π) {u v : ℕ}
    (huv : p.adj u v = true) (hiu : u ∉ p.inputs) (hiv : v ∉ p.inputs) :
    RInv sp cut (p.swapped u v) ((Equiv.swap u v).trans π) := by
  have hu := h.simple.mem u v huv
  have hv := h.simple.mem v u (by rw [h.simple.symm]; exact huv)
  have hm := swap_mem hu hv
  have hps := pivotSwap_simple h.simple hu hv
  have hin : ∀ n, Equiv.swap u v n ∈ p.inputs ↔ n ∈ p.inputs := by
    intro n
    by_cases h1 : n = u
    · subst h1; simp [hiu, hiv]
    · by_cases h2 : n = v
      · subst h2; simp [hiu, hiv]
      · rw [Equiv.swap_apply_of_ne_of_ne h1 h2]
  refine ⟨⟨h.simple.nodup, fun x y => hps.symm _ _, fun x => hps.irrefl _, fun x y hxy => ?_⟩, ?_, ?_, ?_, h.inputs, h.inpMem,
    h.mem, ?_, ?_, ?_, ?_⟩
  · exact (hm x).1 (hps.mem _ _ hxy)
  · intro n hn
    exact h.src _ ((hm n).2 hn)
  · intro w
    have e : ((Equiv.swap u v).trans π).symm w = Equiv.swap u v (π.symm w) := rfl
    rw [e]
    simp only [Rpm.swapped, h.src u hu, h.src v hv]
    by_cases h1 : w = π v
    · subst h1; simp [hu]
    · rw [if_neg h1]
      by_cases h2 : w = π u
      · subst h2; simp [hv]
      · rw [if_neg h2, Equiv.swap_apply_of_ne_of_ne, h.map]
        · rintro e; apply h2; rw [← e]; simp
        · rintro e; apply h1; rw [← e]; simp
  · intro n hn
    have hn' : ∀ k ∈ p.nodes, k ∉ p.inputs → n ≠ k := by
      rintro k hk hik rfl
      exact hn (List.mem_toFinset.1 (h.prepared hk hik))
    rw [Equiv.trans_apply, Equiv.swap_apply_of_ne_of_ne (hn' u hu hiu) (hn' v hv hiv)]
    exact h.fix n hn
  · intro n hn
    exact h.pauliSpec _ ((hm n).2 hn)
  · intro a w
    change w ∈ p.pauli a ↔ _
    rw [h.pauliSet]
    constructor
    · rintro ⟨n, h1, h2, h3, h4⟩
      refine ⟨Equiv.swap u v n, (hm n).2 h1, by simpa using h2, fun h' => h3 ((hin n).1 h'), ?_⟩
      simpa [Rpm.swapped] using h4
    · rintro ⟨n, h1, h2, h3, h4⟩
      exact ⟨Equiv.swap u v n, (hm n).2 h1, by simpa using h2, fun h' => h3 ((hin n).1 h'), h4⟩
  · intro n hn
    exact h.dom _ ((hm n).2 hn)
  · intro n hn h'
    exact h.domM _ ((hm n).2 hn) h'

theorem ren_fix {s : Finset ℕ} {ψ : QState} (h : Absent s ψ) {f : ℕ → ℕ} (hf : ∀ n, n ∉ s → f n = n) : ren f ψ = ψ := by
  funext b
  refine h _ _ fun n hn => ?_
  simp [hf n hn]

theorem swapped_val {sp : StdPattern} {cut : PauliCut} {p : Rpm} {π : Equiv.Perm ℕ} (h : RInv sp cut p π) {u v : ℕ}
    (huv : p.adj u v = true) (hiu : u ∉ p.inputs) (hiv : v ∉ p.inputs) (r : ℕ → Bool) {ψ : QState} (hψ : sp.InOk ψ) :
    ren (Equiv.swap u v) (locOps (fun n => sp.specOp r ((p.swapped u v).specs n)) p.nodes
      (locOps (fun n => (pivK p.adj u v n).matrix) p.nodes (entangleAll (p.swapped u v).adj p.nodes ψ))) = p.val sp r ψ := by
  have hu := h.simple.mem u v huv
  have hv := h.simple.mem v u (by rw [h.simple.symm]; exact huv)
  have hpu := h.prepared hu hiu
  have hpv := h.prepared hv hiv
  have hp := map_swap_perm h.simple.nodup hu hv
  have hnd := hp.nodup_iff.2 h.simple.nodup
  rw [ren_locOps, ren_locOps, ren_entangleAll, ren_fix hψ]
  · have hs : ∀ n, (Equiv.swap u v).symm n = Equiv.swap u v n := fun n => by rw [Equiv.symm_swap]
    simp only [hs, Rpm.swapped, Equiv.swap_apply_self]
    rw [locOps_perm _ hp hnd, locOps_perm _ hp hnd, entangleAll_perm (pivotSwap_simple h.simple hu hv).symm hp]
    have hK : ∀ n, pivK p.adj u v (Equiv.swap u v n) = pivK p.adj u v n := by
      intro n
      unfold pivK
      by_cases h1 : n = u
      · subst h1; simp
      · by_cases h2 : n = v
        · subst h2; simp
        · rw [Equiv.swap_apply_of_ne_of_ne h1 h2]
    simp only [hK]
    rw [← ent_pivot_eq h.simple huv (hψ.noBit hpu) (hψ.noBit hpv)]
    rfl
  · intro n hn
    apply Equiv.swap_apply_of_ne_of_ne
    · rintro rfl; exact hn hpu
    · rintro rfl; exact hn hpv

theorem pivotEdge_ok {sp : StdPattern} {cut : PauliCut} {p : Rpm} {π : Equiv.Perm ℕ} (h : RInv sp cut p π) (ho : OutsOk sp p π)
    {u v : ℕ} (huv : p.adj u v = true) (hiu : u ∉ p.inputs) (hiv : v ∉ p.inputs) :
    ∃ p', p.pivotEdge u v = .ok p' ∧ RInv sp cut p' ((Equiv.swap u v).trans π) ∧ OutsOk sp p' ((Equiv.swap u v).trans π) ∧
      Sim sp p π p' ((Equiv.swap u v).trans π) ∧ p'.nodes = p.nodes ∧ p'.inputs = p.inputs ∧
      (p'.specs v).pauli = (p.specs u).pauli.map fun m => m.clifford Clifford.H := by
  have hne : u ≠ v := by rintro rfl; rw [h.simple.irrefl] at huv; cases huv
  have hu := h.simple.mem u v huv
  have hv := h.simple.mem v u (by rw [h.simple.symm]; exact huv)
  have h0 := swapped_inv h huv hiu hiv
  obtain ⟨p1, e1, h1, a1⟩ := applyClifford_ok h0 hu Clifford.H
  obtain ⟨p2, e2, h2, a2⟩ := applyClifford_ok h1 (n := v) (by rw [a1.nodes]; exact hv) Clifford.H
  obtain ⟨p3, e3, h3, a3⟩ := applyCliffords_ok Clifford.Z ((p.nbrs u).filter fun n => p.adj v n)
    ((h.simple.nodup.filter _).filter _) h2 (by
      intro n hn
      rw [a2.nodes, a1.nodes]
      exact (List.mem_filter.1 (List.mem_filter.1 hn).1).1)
  have a4 : Applied sp (p.swapped u v) p3 (pivK p.adj u v) := by
    refine ((a1.trans a2).trans a3).congr fun n => ?_
    have hm : n ∈ (p.nbrs u).filter (fun n => p.adj v n) ↔ (p.adj u n && p.adj v n) = true := by
      unfold Rpm.nbrs
      rw [List.mem_filter, List.mem_filter, Bool.and_eq_true]
      exact ⟨fun h => ⟨h.1.2, h.2⟩, fun h' => ⟨⟨h.simple.mem n u (by rw [h.simple.symm]; exact h'.1), h'.1⟩, h'.2⟩⟩
    unfold pivK
    simp only [hm]
    by_cases hu' : n = u
    · subst hu'; simp [hne, h.simple.irrefl, Clifford.mul_I]
    · by_cases hv' : n = v
      · subst hv'; simp [hu', h.simple.irrefl, Clifford.mul_I, Clifford.I_mul]
      · simp only [hu', hv', if_false, or_self, Clifford.I_mul]
  have hsim : Sim sp p π p3 ((Equiv.swap u v).trans π) := by
    refine ⟨fun w hw => ?_, fun r _ => ?_⟩
    · rw [a4.nodeMap]
      rw [h.map] at hw
      have hw' : π.symm w ∉ p.nodes := by by_contra hc; rw [if_pos hc] at hw; cases hw
      rw [h0.map, if_neg]
      intro hc
      exact hw' ((swap_mem hu hv _).1 hc)
    · obtain ⟨c, hc, e⟩ := (a4.val h.simple.nodup r).symm
      refine ⟨c, hc, fun ψ hψ => ?_⟩
      have h5 := e ψ
      beta_reduce at h5
      rw [← ren_ren, ← ren_smul π, ← ren_smul (Equiv.swap u v), ← h5]
      congr 1
      exact (swapped_val h huv hiu hiv r hψ).symm
  -- the common end of the four cases on the outputs
  have fin : ∀ s, (∀ n, n ∈ s ↔ Equiv.swap u v n ∈ p.outputs) → ∀ p', p' = { p3 with outputs := s } →
      RInv sp cut p' ((Equiv.swap u v).trans π) ∧ OutsOk sp p' ((Equiv.swap u v).trans π) ∧
      Sim sp p π p' ((Equiv.swap u v).trans π) ∧ p'.nodes = p.nodes ∧ p'.inputs = p.inputs ∧
      (p'.specs v).pauli = (p.specs u).pauli.map fun m => m.clifford Clifford.H := by
    rintro s hs p' rfl
    refine ⟨⟨h3.simple, h3.src, h3.map, h3.fix, h3.inputs, h3.inpMem, h3.mem, h3.pauliSpec, h3.pauliSet, h3.dom, h3.domM⟩,
      ⟨fun n => ?_, fun n hn => ?_⟩, hsim, a4.nodes, a4.inputs, ?_⟩
    · rw [hs, ho.1]; rfl
    · change n ∈ p3.nodes
      rw [a4.nodes]
      exact (swap_mem hu hv n).1 (ho.2 _ ((hs n).1 hn))
    · change (p3.specs v).pauli = _
      rw [a4.pauli]
      simp [Rpm.swapped, pivK]
  -- the execution
  have hout : p3.outputs = p.outputs := a4.outputs
  have hstart : p.swapped u v = ({ p with
      adj := complementEdges (complementEdges (complementEdges p.adj
        (((p.nbrs u).toFinset \ ((p.nbrs u).toFinset ∩ (p.nbrs v).toFinset)) \ {v})
        (((p.nbrs v).toFinset \ ((p.nbrs u).toFinset ∩ (p.nbrs v).toFinset)) \ {u}))
        (((p.nbrs u).toFinset \ ((p.nbrs u).toFinset ∩ (p.nbrs v).toFinset)) \ {v})
        ((p.nbrs u).toFinset ∩ (p.nbrs v).toFinset))
        (((p.nbrs v).toFinset \ ((p.nbrs u).toFinset ∩ (p.nbrs v).toFinset)) \ {u})
        ((p.nbrs u).toFinset ∩ (p.nbrs v).toFinset)
      specs := fun i => if i = u then p.specs v else if i = v then p.specs u else p.specs i
      nodeMap := fun w => if w = (p.specs v).src then some u else if w = (p.specs u).src then some v else p.nodeMap w } : Rpm) := by
    unfold Rpm.swapped
    congr 1
    · funext x y
      exact (pivot_adj h.simple huv x y).symm
    · funext n
      by_cases h1 : n = u
      · subst h1; simp
      · by_cases h2 : n = v
        · subst h2; simp [hne.symm]
        · rw [Equiv.swap_apply_of_ne_of_ne h1 h2]; simp [h1, h2]
  rw [hstart] at e1
  have hexec : p.pivotEdge u v = (if decide (u ∈ p3.outputs) ≠ decide (v ∈ p3.outputs) then do
      let s ← setRemove p3.outputs (if decide (u ∈ p3.outputs) then u else v)
      pure { p3 with outputs := insert (if decide (u ∈ p3.outputs) then v else u) s }
      else pure p3) := by
    unfold Rpm.pivotEdge
    simp only [Rpm.setSpec, bind, Except.bind]
    rw [e1]
    simp only
    rw [e2]
    simp only
    rw [e3]
    simp only
    cases hd : decide (u ∈ p3.outputs) <;> rfl
  rw [hexec, hout]
  by_cases ou : u ∈ p.outputs <;> by_cases ov : v ∈ p.outputs
  · simp only [ou, ov, decide_true, ne_eq, not_true_eq_false, if_false]
    refine ⟨p3, rfl, fin p.outputs (fun n => ?_) p3 ?_⟩
    · by_cases h1 : n = u
      · subst h1; simp [ou, ov]
      · by_cases h2 : n = v
        · subst h2; simp [ou, ov]
        · rw [Equiv.swap_apply_of_ne_of_ne h1 h2]
    · rw [← hout]
  · simp only [ou, ov, decide_true, decide_false, ne_eq, Bool.true_eq_false, not_false_eq_true, if_true, setRemove, bind, Except.bind]
    refine ⟨_, rfl, fin (insert v (p.outputs.erase u)) (fun n => ?_) _ rfl⟩
    by_cases h1 : n = u
    · subst h1; simp [ov, hne]
    · by_cases h2 : n = v
      · subst h2; simp [ou]
      · rw [Equiv.swap_apply_of_ne_of_ne h1 h2]; simp [h1, h2]
  · simp only [ou, ov, decide_true, decide_false, ne_eq, Bool.false_eq_true, not_false_eq_true, if_true, setRemove, bind, Except.bind,
      if_false]
    refine ⟨_, rfl, fin (insert u (p.outputs.erase v)) (fun n => ?_) _ rfl⟩
    by_cases h1 : n = u
    · subst h1; simp [ov]
    · by_cases h2 : n = v
      · subst h2; simp [ou, hne.symm]
      · rw [Equiv.swap_apply_of_ne_of_ne h1 h2]; simp [h1, h2]
  · simp only [ou, ov, decide_false, ne_eq, not_true_eq_false, if_false]
    refine ⟨p3, rfl, fin p.outputs (fun n => ?_) p3 ?_⟩
    · by_cases h1 : n = u
      · subst h1; simp [ou, ov]
      · by_cases h2 : n = v
        · subst h2; simp [ou, ov]
        · rw [Equiv.swap_apply_of_ne_of_ne h1 h2]
    · rw [← hout]

end Graphix
