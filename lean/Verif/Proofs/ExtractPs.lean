import Verif.Proofs.Extract
import Verif.Proofs.FlowCheck
import Verif.Props.NodeIndex
import Verif.Spec.Pauli

/-! What `extraction_ps_from_corrected_node` computes. -/

namespace Graphix
namespace Extract

open Function

theorem setAxes_spec {outs : List ℕ} (ho : outs.Nodup) (a : Axis) (L : List ℕ) : (∀ n ∈ L, n ∈ outs) → ∀ d : PyDict ℕ Axis, d.keys.Nodup →
    ∃ d', setAxes (NodeIndex.clear.extend outs) a L d = .ok d' ∧ d'.keys.Nodup ∧
      (∀ k ∈ d'.keys, k ∈ d.keys ∨ ∃ n ∈ L, outs.idxOf n = k) ∧
      ∀ v ∈ outs, d'.get? (outs.idxOf v) = if v ∈ L then some a else d.get? (outs.idxOf v) := by
  have hinv : (NodeIndex.clear.extend outs).Inv := NodeIndex.Inv.clear.extend (by simpa [NodeIndex.clear] using ho)
  induction L with
  | nil => intro _ d hd; exact ⟨d, rfl, hd, fun k hk => Or.inl hk, fun v _ => by simp⟩
  | cons n L ih =>
    intro hL d hd
    have hn : n ∈ outs := hL n (by simp)
    have hidx := hinv.index_ok (n := n) (by simpa [NodeIndex.extend, NodeIndex.clear] using hn)
    have hlist : (NodeIndex.clear.extend outs).list = outs := by simp [NodeIndex.extend, NodeIndex.clear]
    rw [hlist] at hidx
    obtain ⟨d', h1, h2, h3, h4⟩ := ih (fun m hm => hL m (by simp [hm])) (d.set (outs.idxOf n) a) (PyDict.keys_set_nodup hd _ _)
    refine ⟨d', by simp only [setAxes, hidx, bind, Except.bind, h1], h2, ?_, ?_⟩
    · intro k hk
      rcases h3 k hk with h | ⟨m, hm, rfl⟩
      · rcases (PyDict.mem_keys_set _ _ _ _).1 h with h | h
        · first | exact Or.inl h | exact Or.inr ⟨n, by simp, h.symm⟩
        · first | exact Or.inr ⟨n, by simp, h.symm⟩ | exact Or.inl h
      · exact Or.inr ⟨m, by simp [hm], rfl⟩
    · intro v hv
      rw [h4 v hv, PyDict.get?_set]
      by_cases hvL : v ∈ L
      · simp [hvL]
      · by_cases hvn : v = n
        · subst hvn; simp
        · have : outs.idxOf n ≠ outs.idxOf v := fun h => hvn ((List.idxOf_inj hn).1 h).symm
          simp [hvL, hvn, this]

theorem foldl_xor (g : ℕ → Bool) (L : List ℕ) : ∀ b, L.foldl (fun neg n => Bool.xor neg (g n)) b = Bool.xor b (xorl L g) := by
  induction L with
  | nil => intro b; simp
  | cons a L ih => intro b; rw [List.foldl_cons, ih, xorl_cons, Bool.xor_assoc]

theorem xorl_finset {L l : List ℕ} (hL : L.Nodup) (hl : l.Nodup) (p : ℕ → Bool) (h : ∀ x, x ∈ L ↔ x ∈ l ∧ p x = true) (g : ℕ → Bool) :
    xorl L g = xorl l fun x => p x && g x := by
  rw [xorl_filter_length, xorl_filter_length]
  have : (L.filter g).Perm (l.filter fun x => p x && g x) := by
    refine (List.perm_ext_iff_of_nodup (hL.filter _) (hl.filter _)).2 fun x => ?_
    simp only [List.mem_filter, h, Bool.and_eq_true]
    tauto
  rw [this.length_eq]

/-- The bit of a set. -/
def bit (s : Finset ℕ) (w : ℕ) : Bool := decide (w ∈ s)

theorem oddp_bit {og : OpenGraph} (hv : og.Valid) (hloop : ∀ e ∈ og.edges, e.1 ≠ e.2) (c : Finset ℕ) (w : ℕ) :
    oddp og.edges (bit c) w = bit (og.oddSet c) w := by
  classical
  have := oddp_eq og hv.edge_once hloop c w
  unfold bit
  rw [this]
  exact decide_eq_decide.2 (og.mem_oddSet c w).symm

theorem oddSet_sub {og : OpenGraph} (hv : og.Valid) (c : Finset ℕ) : og.oddSet c ⊆ og.nodes := by
  intro w hw
  rw [OpenGraph.mem_oddSet] at hw
  unfold OpenGraph.InOdd at hw
  have : (c.filter (og.Adj w)).Nonempty := by
    rw [Finset.nonempty_iff_ne_empty]
    intro h
    rw [h] at hw; simp at hw
  obtain ⟨x, hx⟩ := this
  rcases (Finset.mem_filter.1 hx).2 with h | h
  · exact (hv.edge_mem _ _ h).1
  · exact (hv.edge_mem _ _ h).2

/-- The sign that the code computes for the set `c`, before the correction for the plane YZ. -/
def signOf (og : OpenGraph) (c : Finset ℕ) : Bool :=
  Bool.xor (stabSign og.edges (og.nodes.sort (· ≤ ·)) (bit c))
    (xorl (og.nodes.sort (· ≤ ·)) fun w => (bit c w || bit (og.oddSet c) w) && isMinus og w)

theorem stabSign_eq {og : OpenGraph} (hv : og.Valid) (hloop : ∀ e ∈ og.edges, e.1 ≠ e.2) {c : Finset ℕ} (hc : c ⊆ og.nodes) :
    stabSign og.edges (og.nodes.sort (· ≤ ·)) (bit c) =
      Bool.xor (decide ((og.edges.filter fun e => decide (e.1 ∈ c ∧ e.2 ∈ c)).length % 2 = 1))
        (decide ((c ∩ og.oddSet c).card / 2 % 2 = 1)) := by
  unfold stabSign
  congr 1
  · rw [xorl_filter_length]
    have : (fun e : ℕ × ℕ => bit c e.1 && bit c e.2) = fun e => decide (e.1 ∈ c ∧ e.2 ∈ c) := by
      funext e; simp [bit]
    rw [this]
    exact decide_eq_decide.2 Nat.odd_iff
  · have : ((og.nodes.sort (· ≤ ·)).filter fun v => bit c v && oddp og.edges (bit c) v).length = (c ∩ og.oddSet c).card := by
      rw [← List.toFinset_card_of_nodup ((Finset.sort_nodup _ _).filter _)]
      congr 1
      ext v
      simp only [List.mem_toFinset, List.mem_filter, Finset.mem_sort, oddp_bit hv hloop, bit, Bool.and_eq_true, decide_eq_true_eq, Finset.mem_inter]
      exact ⟨fun h => h.2, fun h => ⟨hc h.1, h⟩⟩
    rw [this]

theorem minusIf_toComplex (b : Bool) : (Sign.minusIf b).toComplex = sgn b := by
  cases b <;> simp [Sign.minusIf, Sign.toComplex, Sign.toInt]

/-- `extraction_ps_from_corrected_node`: the Pauli string with `X` on the outputs in the correction set and `Z` on those in
its odd neighbourhood. -/
theorem extractionPs_spec {f : Flow} (hv : f.og.Valid) (hloop : ∀ e ∈ f.og.edges, e.1 ≠ e.2) {ord : SetOrd} (hord : ord.Valid)
    {node : ℕ} {c : Finset ℕ} {lb : Label} (hcorr : f.corr.get? node = some c) (hc : c ⊆ f.og.nodes) (hlb : f.og.HasLabel node lb) :
    ∃ p, extractionPs f ord node = .ok p ∧ p.Valid ∧ p.dim = f.og.outputs.length ∧
      (∀ v ∈ f.og.outputs, p.mat (f.og.outputs.idxOf v) = pmB (bit c v) (bit (f.og.oddSet c) v)) ∧
      p.sign.toComplex = sgn (Bool.xor (signOf f.og c) (decide (lb = .plane .YZ))) := by
  obtain ⟨-, -, -, -, hout, -⟩ := f.og.postInit_ok hv.post
  obtain ⟨m, hm1, hm2⟩ := hlb
  obtain ⟨d1, e1, k1, r1, g1⟩ := setAxes_spec hout .X (ord 22 node ((c \ f.og.oddSet c) ∩ f.og.outputs.toFinset)) (by
    intro n hn; rw [(hord _ _ _).2] at hn; simpa using (Finset.mem_inter.1 hn).2) [] (by simp [PyDict.keys])
  obtain ⟨d2, e2, k2, r2, g2⟩ := setAxes_spec hout .Y (ord 23 node ((c ∩ f.og.oddSet c) ∩ f.og.outputs.toFinset)) (by
    intro n hn; rw [(hord _ _ _).2] at hn; simpa using (Finset.mem_inter.1 hn).2) d1 k1
  obtain ⟨d3, e3, k3, r3, g3⟩ := setAxes_spec hout .Z (ord 24 node ((f.og.oddSet c \ c) ∩ f.og.outputs.toFinset)) (by
    intro n hn; rw [(hord _ _ _).2] at hn; simpa using (Finset.mem_inter.1 hn).2) d2 k2
  have hlab : f.og.label node = .ok lb := by unfold OpenGraph.label; rw [hm1, ← hm2]
  have hcs : f.correctionSet node = .ok c := by unfold Flow.correctionSet; rw [hcorr]
  refine ⟨⟨f.og.outputs.length, d3, Sign.minusIf (Bool.xor ((ord 21 node (c ∪ f.og.oddSet c)).foldl (fun neg n => Bool.xor neg (isMinus f.og n))
      (Bool.xor (decide ((f.og.edges.filter fun e => decide (e.1 ∈ c ∧ e.2 ∈ c)).length % 2 = 1)) (decide ((c ∩ f.og.oddSet c).card / 2 % 2 = 1))))
        (decide (lb = .plane .YZ)))⟩, ?_, ⟨k3, ?_⟩, rfl, ?_, ?_⟩
  · unfold extractionPs
    simp only [hcs, f.og.oddNeighbors_eq hc, hlab, e1, e2, e3, bind, Except.bind, pure, Except.pure]
  · intro k hk
    have hlt : ∀ (s : Finset ℕ) (i j : ℕ), (∃ n ∈ ord i j (s ∩ f.og.outputs.toFinset), f.og.outputs.idxOf n = k) → k < f.og.outputs.length := by
      rintro s i j ⟨n, hn, rfl⟩
      rw [(hord _ _ _).2] at hn
      exact List.idxOf_lt_length_iff.2 (by simpa using (Finset.mem_inter.1 hn).2)
    rcases r3 k hk with h | h
    · rcases r2 k h with h | h
      · rcases r1 k h with h | h
        · simp [PyDict.keys] at h
        · exact hlt _ _ _ h
      · exact hlt _ _ _ h
    · exact hlt _ _ _ h
  · intro v hv
    unfold PauliString.mat
    simp only []
    rw [g3 v hv, g2 v hv, g1 v hv]
    simp only [(hord _ _ _).2, Finset.mem_inter, Finset.mem_sdiff, List.mem_toFinset, hv, and_true, bit]
    by_cases a : v ∈ c <;> by_cases b : v ∈ f.og.oddSet c <;> simp [a, b, pmB, Ops.fromAxis]
  · simp only []
    rw [minusIf_toComplex, foldl_xor, xorl_finset (l := f.og.nodes.sort (· ≤ ·)) (p := fun w => bit c w || bit (f.og.oddSet c) w) (hord _ _ _).1 (Finset.sort_nodup _ _)]
    · unfold signOf
      rw [stabSign_eq hv hloop hc]
    · intro x
      rw [(hord _ _ _).2]
      simp only [Finset.mem_union, Finset.mem_sort, bit, Bool.or_eq_true, decide_eq_true_eq]
      constructor
      · rintro (h | h)
        · exact ⟨hc h, Or.inl h⟩
        · exact ⟨oddSet_sub hv c h, Or.inr h⟩
      · exact fun h => h.2

end Extract
end Graphix
