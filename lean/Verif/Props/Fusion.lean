import Mathlib.Algebra.BigOperators.Group.Finset.Piecewise
import Mathlib.Tactic.Ring
import Mathlib.Tactic.Linarith
import Verif.Spec.Fusion

/-!
# C50: fusion networks (`graphix/extraction.py`)
-/

namespace Graphix
namespace Fusion

variable {nodes : List ℕ}

theorem mem_edges {g : NxGraph} (hg : g.Simple) (u v : ℕ) : s(u, v) ∈ g.edges ↔ v ∈ g.adj u := by
  simp only [NxGraph.edges, Finset.mem_biUnion, List.mem_toFinset, Finset.mem_image]
  constructor
  · rintro ⟨x, -, y, hy, h⟩
    rcases Sym2.eq_iff.1 h with ⟨rfl, rfl⟩ | ⟨rfl, rfl⟩
    · exact hy
    · exact hg.symm _ _ hy
  · intro h
    exact ⟨u, hg.mem _ _ (hg.symm _ _ h), v, h, rfl⟩

/-- Removal of an edge from the adjacency dictionaries. -/
def rm (adj : ℕ → List ℕ) (u v : ℕ) : ℕ → List ℕ := fun x =>
  if x = u then (adj u).erase v else if x = v then (adj v).erase u else adj x

theorem mem_rm {adj : ℕ → List ℕ} (hg : (NxGraph.mk nodes adj).Simple) {u v : ℕ} (huv : u ≠ v) (x y : ℕ) :
    y ∈ rm adj u v x ↔ y ∈ adj x ∧ s(x, y) ≠ s(u, v) := by
  have hn := hg.adj
  simp only at hn
  unfold rm
  split_ifs with h1 h2
  · subst h1
    rw [(hn x).mem_erase_iff, and_comm]
    refine and_congr_right fun _ => not_congr ?_
    simp only [Sym2.eq_iff, true_and]
    constructor
    · exact fun h => .inl h
    · rintro (h | ⟨h, h'⟩)
      · exact h
      · exact absurd h huv
  · subst h2
    rw [(hn x).mem_erase_iff, and_comm]
    refine and_congr_right fun _ => not_congr ?_
    simp only [Sym2.eq_iff, true_and]
    constructor
    · exact fun h => .inr h
    · rintro (⟨h, -⟩ | h)
      · exact absurd h h1
      · exact h
  · refine ⟨fun h => ⟨h, ?_⟩, fun h => h.1⟩
    rw [Ne, Sym2.eq_iff]
    rintro (⟨h, -⟩ | ⟨h, -⟩)
    · exact h1 h
    · exact h2 h

theorem rm_sublist (adj : ℕ → List ℕ) (u v x : ℕ) : (rm adj u v x).Sublist (adj x) := by
  unfold rm
  split_ifs with h1 h2
  · subst h1; exact List.erase_sublist
  · subst h2; exact List.erase_sublist
  · exact List.Sublist.refl _

theorem simple_rm {adj : ℕ → List ℕ} (hg : (NxGraph.mk nodes adj).Simple) {u v : ℕ} (huv : u ≠ v) :
    (NxGraph.mk nodes (rm adj u v)).Simple where
  nodes := hg.nodes
  adj x := (hg.adj x).sublist (rm_sublist adj u v x)
  irrefl x h := hg.irrefl x ((rm_sublist adj u v x).subset h)
  symm x y h := by
    simp only at h ⊢
    rw [mem_rm hg huv] at h ⊢
    exact ⟨hg.symm _ _ h.1, by rw [Sym2.eq_swap]; exact h.2⟩
  mem x y h := hg.mem x y ((rm_sublist adj u v y).subset h)

theorem edges_rm {adj : ℕ → List ℕ} (hg : (NxGraph.mk nodes adj).Simple) {u v : ℕ} (huv : u ≠ v) :
    (NxGraph.mk nodes (rm adj u v)).edges = (NxGraph.mk nodes adj).edges.erase s(u, v) := by
  ext e
  induction e using Sym2.ind with
  | _ x y =>
    rw [mem_edges (simple_rm hg huv), Finset.mem_erase, mem_edges hg, and_comm]
    exact mem_rm hg huv x y

/-- The handshake lemma. -/
theorem handshake : ∀ (k : ℕ) (adj : ℕ → List ℕ), (NxGraph.mk nodes adj).Simple → (NxGraph.mk nodes adj).edges.card = k →
    ∑ x ∈ nodes.toFinset, (adj x).length = 2 * k := by
  intro k
  induction k with
  | zero =>
    intro adj hg hk
    rw [Finset.card_eq_zero] at hk
    refine Finset.sum_eq_zero fun x _ => ?_
    rw [List.length_eq_zero_iff, List.eq_nil_iff_forall_not_mem]
    intro y hy
    have := (mem_edges hg x y).2 hy
    rw [hk] at this
    simp at this
  | succ k ih =>
    intro adj hg hk
    obtain ⟨e, he⟩ : (NxGraph.mk nodes adj).edges.Nonempty := Finset.card_pos.1 (by omega)
    induction e using Sym2.ind with
    | _ u v =>
      have hv : v ∈ adj u := (mem_edges hg u v).1 he
      have hu : u ∈ adj v := hg.symm _ _ hv
      have huv : u ≠ v := by rintro rfl; exact hg.irrefl _ hv
      have h1 := ih (rm adj u v) (simple_rm hg huv) (by rw [edges_rm hg huv, Finset.card_erase_of_mem he, hk]; rfl)
      have h2 : ∀ x ∈ nodes.toFinset, (adj x).length = (rm adj u v x).length + ((if x = u then 1 else 0) + (if x = v then 1 else 0)) := by
        intro x _
        unfold rm
        by_cases hxu : x = u
        · subst hxu
          rw [if_pos rfl, if_pos rfl, if_neg huv, List.length_erase_of_mem hv]
          have := List.length_pos_of_mem hv
          omega
        · rw [if_neg hxu, if_neg hxu]
          by_cases hxv : x = v
          · subst hxv
            rw [if_pos rfl, if_pos rfl, List.length_erase_of_mem hu]
            have := List.length_pos_of_mem hu
            omega
          · rw [if_neg hxv, if_neg hxv]; rfl
      rw [Finset.sum_congr rfl h2, Finset.sum_add_distrib, Finset.sum_add_distrib, h1,
        Finset.sum_ite_eq', Finset.sum_ite_eq', if_pos (by simpa using hg.mem _ _ hu), if_pos (by simpa using hg.mem _ _ hv)]
      omega

theorem numberOfEdges_eq {g : NxGraph} (hg : g.Simple) : numberOfEdges g = g.edges.card := by
  have h := handshake _ g.adj hg rfl
  unfold numberOfEdges
  rw [List.sum_toFinset _ hg.nodes] at h
  rw [h]
  push_cast
  exact Int.mul_ediv_cancel_left _ (by decide)

/-- The edges `es` have been removed between the states `s` and `s'`. -/
structure Taken (nodes : List ℕ) (s : St) (es : List (Sym2 ℕ)) (s' : St) : Prop where
  simple : (NxGraph.mk nodes s'.adj).Simple
  nodup : es.Nodup
  edges : ∀ e, e ∈ (NxGraph.mk nodes s.adj).edges ↔ e ∈ (NxGraph.mk nodes s'.adj).edges ∨ e ∈ es
  disj : ∀ e ∈ es, e ∉ (NxGraph.mk nodes s'.adj).edges
  ne : s'.ne = s.ne - es.length
  out : s'.out = s.out
  sub : ∀ x, (s'.adj x).Sublist (s.adj x)

theorem Taken.refl {s : St} (hs : (NxGraph.mk nodes s.adj).Simple) : Taken nodes s [] s :=
  ⟨hs, by simp, by simp, by simp, by simp, rfl, fun _ => .refl _⟩

theorem Taken.trans {s s' s'' : St} {es es' : List (Sym2 ℕ)} (h : Taken nodes s es s') (h' : Taken nodes s' es' s'') :
    Taken nodes s (es ++ es') s'' where
  simple := h'.simple
  nodup := by
    rw [List.nodup_append']
    refine ⟨h.nodup, h'.nodup, List.disjoint_left.2 fun e he he' => h.disj e he ((h'.edges e).2 (.inr he'))⟩
  edges e := by rw [h.edges, h'.edges, List.mem_append, or_assoc, or_comm (a := e ∈ es)]
  disj e he hc := by
    rcases List.mem_append.1 he with he | he
    · exact h.disj e he ((h'.edges e).2 (.inl hc))
    · exact h'.disj e he hc
  ne := by rw [h'.ne, h.ne, List.length_append]; push_cast; ring
  out := by rw [h'.out, h.out]
  sub x := (h'.sub x).trans (h.sub x)

theorem taken_rm {s : St} (hs : (NxGraph.mk nodes s.adj).Simple) {v n : ℕ} (hn : n ∈ s.adj v) :
    Taken nodes s [s(v, n)] { s with adj := rm s.adj v n, ne := s.ne - 1 } := by
  have hvn : v ≠ n := by rintro rfl; exact hs.irrefl _ hn
  refine ⟨simple_rm hs hvn, by simp, fun e => ?_, ?_, by simp, rfl, rm_sublist _ _ _⟩
  · simp only [edges_rm hs hvn, Finset.mem_erase, List.mem_singleton]
    by_cases h : e = s(v, n)
    · subst h; simpa using (mem_edges hs v n).2 hn
    · simp [h]
  · simp [edges_rm hs hvn]

theorem popEdge_ok {s : St} (hs : (NxGraph.mk nodes s.adj).Simple) {v : ℕ} (h : 0 < (s.adj v).length) :
    ∃ n ∈ s.adj v, popEdge s v = .ok (n, { s with adj := rm s.adj v n, ne := s.ne - 1 }) := by
  have hne : s.adj v ≠ [] := List.ne_nil_of_length_pos h
  refine ⟨(s.adj v).getLast hne, List.getLast_mem hne, ?_⟩
  have hl : (s.adj v).getLast? = some ((s.adj v).getLast hne) := List.getLast?_eq_getLast_of_ne_nil hne
  have hm : (s.adj v).getLast hne ∈ s.adj v := List.getLast_mem hne
  have hd : (s.adj v).dropLast = (s.adj v).erase ((s.adj v).getLast hne) := by
    have e := List.dropLast_append_getLast hne
    have hnd : (s.adj v).Nodup := hs.adj v
    generalize (s.adj v).getLast hne = n at *
    rw [← e] at hnd ⊢
    have hn : n ∉ (s.adj v).dropLast := fun h => by
      rw [List.nodup_append'] at hnd
      exact List.disjoint_left.1 hnd.2.2 h (by simp)
    rw [List.dropLast_concat, List.erase_append_right _ hn]
    simp
  generalize (s.adj v).getLast hne = n at *
  have hvn : n ≠ v := by rintro rfl; exact hs.irrefl _ hm
  have hv : v ∈ s.adj n := hs.symm _ _ hm
  unfold popEdge
  simp only [hl]
  rw [Function.update_of_ne hvn, if_neg (by simpa using hv), hd]
  congr 3
  funext x
  unfold rm
  by_cases hxn : x = n
  · subst hxn
    rw [Function.update_self, if_neg hvn, if_pos rfl]
  · rw [Function.update_of_ne hxn, if_neg hxn]
    by_cases hxv : x = v
    · subst hxv; rw [Function.update_self, if_pos rfl]
    · rw [Function.update_of_ne hxv, if_neg hxv]

theorem ghzLoop_ok (m : Option ℕ) (v : ℕ) : ∀ (k : ℕ) (s : St) (l : List ℕ), (NxGraph.mk nodes s.adj).Simple →
    (s.adj v).length ≤ k → ∃ p s', ghzLoop m v k s l = .ok (s', l ++ p) ∧ Taken nodes s (p.map fun n => s(v, n)) s' ∧
      (∀ n ∈ p, n ∈ s.adj v) ∧ (p = [] ∨ below (l.length + p.length - 1) m = true) ∧
      (s'.adj v = [] ∨ below (l.length + p.length) m = false) := by
  intro k
  induction k with
  | zero =>
    intro s l hs hk
    have : (s.adj v).length = 0 := by omega
    refine ⟨[], s, ?_, .refl hs, by simp, .inl rfl, .inl (List.length_eq_zero_iff.1 this)⟩
    simp [ghzLoop, this]
  | succ k ih =>
    intro s l hs hk
    by_cases hc : 0 < (s.adj v).length ∧ below l.length m = true
    · obtain ⟨n, hn, hp⟩ := popEdge_ok hs hc.1
      have ht := taken_rm hs hn
      have hlen : (rm s.adj v n v).length ≤ k := by
        unfold rm
        rw [if_pos rfl, List.length_erase_of_mem hn]
        omega
      obtain ⟨p, s', h1, h2, h3, h4, h5⟩ := ih _ (l ++ [n]) ht.simple hlen
      refine ⟨n :: p, s', ?_, ?_, ?_, ?_, ?_⟩
      · simp only [ghzLoop, if_pos hc, hp, h1, List.append_assoc, List.singleton_append]
      · exact ht.trans h2
      · intro x hx
        rcases List.mem_cons.1 hx with rfl | hx
        · exact hn
        · exact (ht.sub v).subset (h3 x hx)
      · right
        rcases h4 with rfl | h4
        · simpa using hc.2
        · convert h4 using 2
          simp only [List.length_append, List.length_cons, List.length_nil]
          omega
      · convert h5 using 3
        simp only [List.length_append, List.length_cons, List.length_nil]
        omega
    · refine ⟨[], s, ?_, .refl hs, by simp, .inl rfl, ?_⟩
      · simp only [ghzLoop, if_neg hc, List.append_nil]
      · by_cases h0 : s.adj v = []
        · exact .inl h0
        · right
          have : 0 < (s.adj v).length := List.length_pos_of_ne_nil h0
          simpa [this] using hc

theorem linLoop_ok (m : Option ℕ) : ∀ (k : ℕ) (s : St) (n : ℕ) (l : List ℕ), (NxGraph.mk nodes s.adj).Simple →
    (NxGraph.mk nodes s.adj).edges.card ≤ k → ∃ p s', linLoop m k s n l = .ok (s', l ++ p) ∧
      Taken nodes s (pairs (n :: p)) s' ∧ (∀ x ∈ p, x ∈ nodes) ∧ (p = [] ∨ below (l.length + p.length - 1) m = true) ∧
      (0 < (s.adj n).length → below l.length m = true → p ≠ []) ∧
      ((∀ x, (s.adj x).length ≤ 2) → (s.adj n).length ≤ 1 → (n :: p).Nodup ∧ ∀ x, s.adj x = [] → x ∉ p) := by
  intro k
  induction k with
  | zero =>
    intro s n l hs hk
    have h0 : s.adj n = [] := by
      rw [List.eq_nil_iff_forall_not_mem]
      intro y hy
      have := (mem_edges hs n y).2 hy
      rw [Nat.le_zero, Finset.card_eq_zero] at hk
      rw [hk] at this
      simp at this
    refine ⟨[], s, ?_, .refl hs, by simp, .inl rfl, by simp [h0], by simp⟩
    simp [linLoop, h0]
  | succ k ih =>
    intro s n l hs hk
    by_cases hc : 0 < (s.adj n).length ∧ below l.length m = true
    · obtain ⟨a, ha, hp⟩ := popEdge_ok hs hc.1
      have ht := taken_rm hs ha
      have hna : n ≠ a := by rintro rfl; exact hs.irrefl _ ha
      have hcard : (NxGraph.mk nodes (rm s.adj n a)).edges.card ≤ k := by
        rw [edges_rm hs hna, Finset.card_erase_of_mem ((mem_edges hs n a).2 ha)]
        omega
      obtain ⟨p, s', h1, h2, h3, h4, -, h5⟩ := ih _ a (l ++ [a]) ht.simple hcard
      refine ⟨a :: p, s', ?_, ?_, ?_, ?_, by simp, ?_⟩
      · simp only [linLoop, if_pos hc, hp, h1, List.append_assoc, List.singleton_append]
      · exact ht.trans h2
      · intro x hx
        rcases List.mem_cons.1 hx with rfl | hx
        · exact hs.mem _ _ ha
        · exact h3 x hx
      · right
        rcases h4 with rfl | h4
        · simpa using hc.2
        · convert h4 using 2
          simp only [List.length_append, List.length_cons, List.length_nil]
          omega
      · intro hd hd1
        have hn0 : rm s.adj n a n = [] := by
          unfold rm
          rw [if_pos rfl, ← List.length_eq_zero_iff, List.length_erase_of_mem ha]
          omega
        have ha1 : (rm s.adj n a a).length ≤ 1 := by
          unfold rm
          rw [if_neg hna.symm, if_pos rfl, List.length_erase_of_mem (hs.symm _ _ ha)]
          have := hd a
          show (s.adj a).length - 1 ≤ 1
          omega
        obtain ⟨g1, g2⟩ := h5 (fun x => (List.Sublist.length_le (ht.sub x)).trans (hd x)) ha1
        refine ⟨?_, ?_⟩
        · rw [List.nodup_cons]
          refine ⟨fun h => ?_, g1⟩
          rcases List.mem_cons.1 h with h | h
          · exact hna h
          · exact g2 n hn0 h
        · intro x hx h
          rcases List.mem_cons.1 h with rfl | h
          · have := hs.symm _ _ ha
            simp only at this
            rw [hx] at this
            simp at this
          · refine g2 x ?_ h
            exact List.sublist_nil.1 (hx ▸ ht.sub x)
    · refine ⟨[], s, ?_, .refl hs, by simp, .inl rfl, fun h h' => absurd ⟨h, h'⟩ hc, by simp⟩
      simp only [linLoop, if_neg hc, List.append_nil]

theorem below_mono {k k' : ℕ} {m : Option ℕ} (h : k' ≤ k) (hb : below k m = true) : below k' m = true := by
  cases m with
  | none => rfl
  | some m => simp only [below, decide_eq_true_eq] at hb ⊢; omega

theorem dedup_rev_nodup (l : List ℕ) : l.reverse.dedup.reverse.Nodup := List.nodup_reverse.2 (List.nodup_dedup _)

theorem mem_dedup_rev (l : List ℕ) (x : ℕ) : x ∈ l.reverse.dedup.reverse ↔ x ∈ l := by simp

theorem dedup_rev_eq {l : List ℕ} (h : l.Nodup) : l.reverse.dedup.reverse = l := by
  rw [List.dedup_eq_self.2 (List.nodup_reverse.2 h), List.reverse_reverse]

theorem mem_pairs {l : List ℕ} {e : Sym2 ℕ} : e ∈ pairs l ↔ ∃ i a b, l[i]? = some a ∧ l[i + 1]? = some b ∧ e = s(a, b) := by
  fun_induction pairs l with
  | case1 a b l ih =>
    rw [List.mem_cons, ih]
    constructor
    · rintro (rfl | ⟨i, x, y, h1, h2, rfl⟩)
      · exact ⟨0, a, b, rfl, rfl, rfl⟩
      · exact ⟨i + 1, x, y, h1, h2, rfl⟩
    · rintro ⟨i, x, y, h1, h2, rfl⟩
      cases i with
      | zero =>
        simp only [List.getElem?_cons_zero, Option.some.injEq, zero_add, List.getElem?_cons_succ] at h1 h2
        subst h1; subst h2
        exact .inl rfl
      | succ i => exact .inr ⟨i, x, y, h1, h2, rfl⟩
  | case2 l h =>
    simp only [List.not_mem_nil, false_iff]
    rintro ⟨i, x, y, h1, h2, rfl⟩
    match l, h with
    | [], _ => simp at h1
    | [a], _ => simp at h2
    | a :: b :: l, h => exact h a b l rfl

theorem star_of (v : ℕ) (p : List ℕ) : (createResourceGraph (v :: p) (some v)).IsStar := by
  refine ⟨dedup_rev_nodup _, v, (mem_dedup_rev _ _).2 (by simp), fun e => ?_⟩
  simp only [createResourceGraph, List.mem_toFinset, List.mem_map, List.mem_filter, decide_eq_true_eq, mem_dedup_rev]
  constructor
  · rintro ⟨x, ⟨h1, h2⟩, rfl⟩; exact ⟨x, h1, h2, rfl⟩
  · rintro ⟨x, h1, h2, rfl⟩; exact ⟨x, ⟨h1, h2⟩, rfl⟩

theorem edges_star {v : ℕ} {p : List ℕ} (h : v ∉ p) (e : Sym2 ℕ) :
    e ∈ (createResourceGraph (v :: p) (some v)).edges ↔ e ∈ p.map fun n => s(v, n) := by
  simp only [createResourceGraph, List.mem_toFinset, List.mem_map, List.mem_filter, decide_eq_true_eq, List.mem_cons]
  constructor
  · rintro ⟨x, ⟨rfl | h1, h2⟩, rfl⟩
    · exact absurd rfl h2
    · exact ⟨x, h1, rfl⟩
  · rintro ⟨x, h1, rfl⟩; exact ⟨x, ⟨.inr h1, fun hx => h (hx ▸ h1)⟩, rfl⟩

/-- What the state satisfies between two extractions; `Q` is a property of the resource graphs. -/
structure Inv (g : NxGraph) (Q : ResourceGraph → Prop) (s : St) : Prop where
  simple : (NxGraph.mk g.nodes s.adj).Simple
  ne : s.ne = (NxGraph.mk g.nodes s.adj).edges.card
  edges : ∀ e, e ∈ g.edges ↔ e ∈ (NxGraph.mk g.nodes s.adj).edges ∨ ∃ r ∈ s.out, e ∈ r.edges
  disj : ∀ r ∈ s.out, Disjoint r.edges (NxGraph.mk g.nodes s.adj).edges
  pairwise : s.out.Pairwise fun r r' => Disjoint r.edges r'.edges
  nodes : ∀ r ∈ s.out, ∀ x ∈ r.nodes, x ∈ g.nodes
  ends : ∀ r ∈ s.out, ∀ e ∈ r.edges, ∀ x ∈ e, x ∈ r.nodes
  isolated : ∀ v ∈ g.nodes, g.adj v = [] → ∃ r ∈ s.out, v ∈ r.nodes
  q : ∀ r ∈ s.out, Q r
  sub : ∀ x, (s.adj x).Sublist (g.adj x)

theorem Inv.push {g : NxGraph} {Q : ResourceGraph → Prop} {s s' : St} (h : Inv g Q s) {es : List (Sym2 ℕ)}
    (ht : Taken g.nodes s es s') (r : ResourceGraph) (hr : ∀ e, e ∈ r.edges ↔ e ∈ es) (hn : ∀ x ∈ r.nodes, x ∈ g.nodes)
    (hends : ∀ e ∈ r.edges, ∀ x ∈ e, x ∈ r.nodes) (hq : Q r) : Inv g Q { s' with out := s'.out ++ [r] } := by
  have hin : ∀ e ∈ es, e ∈ (NxGraph.mk g.nodes s.adj).edges := fun e he => (ht.edges e).2 (.inr he)
  refine ⟨ht.simple, ?_, ?_, ?_, ?_, ?_, ?_, ?_, ?_, fun x => (ht.sub x).trans (h.sub x)⟩
  · have hc : (NxGraph.mk g.nodes s.adj).edges = (NxGraph.mk g.nodes s'.adj).edges ∪ es.toFinset := by
      ext e; rw [ht.edges]; simp
    have hd : Disjoint (NxGraph.mk g.nodes s'.adj).edges es.toFinset := by
      rw [Finset.disjoint_right]
      exact fun e he => ht.disj e (by simpa using he)
    have := h.ne
    rw [hc, Finset.card_union_of_disjoint hd, List.toFinset_card_of_nodup ht.nodup] at this
    show s'.ne = _
    rw [ht.ne, this]
    push_cast
    ring
  · intro e
    rw [h.edges, ht.edges, ht.out]
    simp only [List.mem_append, List.mem_singleton]
    constructor
    · rintro ((h1 | h1) | ⟨r', h1, h2⟩)
      · exact .inl h1
      · exact .inr ⟨r, .inr rfl, (hr e).2 h1⟩
      · exact .inr ⟨r', .inl h1, h2⟩
    · rintro (h1 | ⟨r', h1 | rfl, h2⟩)
      · exact .inl (.inl h1)
      · exact .inr ⟨r', h1, h2⟩
      · exact .inl (.inr ((hr e).1 h2))
  · intro r' hr'
    rw [Finset.disjoint_left]
    intro e he hc
    simp only [ht.out, List.mem_append, List.mem_singleton] at hr'
    rcases hr' with hr' | rfl
    · exact Finset.disjoint_left.1 (h.disj r' hr') he ((ht.edges e).2 (.inl hc))
    · exact ht.disj e ((hr e).1 he) hc
  · show (s'.out ++ [r]).Pairwise _
    rw [ht.out, List.pairwise_append]
    refine ⟨h.pairwise, by simp, fun r' hr' r'' hr'' => ?_⟩
    rw [List.mem_singleton] at hr''
    subst hr''
    rw [Finset.disjoint_left]
    intro e he he'
    exact Finset.disjoint_left.1 (h.disj r' hr') he (hin e ((hr e).1 he'))
  · intro r' hr'
    simp only [ht.out, List.mem_append, List.mem_singleton] at hr'
    rcases hr' with hr' | rfl
    · exact h.nodes r' hr'
    · exact hn
  · intro r' hr'
    simp only [ht.out, List.mem_append, List.mem_singleton] at hr'
    rcases hr' with hr' | rfl
    · exact h.ends r' hr'
    · exact hends
  · intro v hv h0
    obtain ⟨r', h1, h2⟩ := h.isolated v hv h0
    exact ⟨r', by simp [ht.out, h1], h2⟩
  · intro r' hr'
    simp only [ht.out, List.mem_append, List.mem_singleton] at hr'
    rcases hr' with hr' | rfl
    · exact h.q r' hr'
    · exact hq

/-- The shape and the size of a resource graph. -/
structure Shape (mg ml : Option ℕ) (thin : Prop) (r : ResourceGraph) : Prop where
  star : r.ghz = true → r.IsStar
  line : r.ghz = false → thin → r.IsPath
  ghzSize : r.ghz = true → r.nodes.length ≤ 3 ∨ below (r.nodes.length - 1) mg = true
  linSize : r.ghz = false → r.nodes.length ≤ 1 ∨ below (r.nodes.length - 1) ml = true

theorem length_dedup_rev_le (l : List ℕ) : l.reverse.dedup.reverse.length ≤ l.length := by
  rw [List.length_reverse]
  exact (List.dedup_sublist _).length_le.trans (by simp)

theorem ghzStep_ok {g : NxGraph} {mg ml : Option ℕ} {thin : Prop} {s : St} (h : Inv g (Shape mg ml thin) s) {v : ℕ}
    (hv : v ∈ g.nodes) : ∃ s', ghzStep mg s v = .ok s' ∧ Inv g (Shape mg ml thin) s' ∧
      (∀ x, (s'.adj x).Sublist (s.adj x)) ∧ (below (s.adj v).length mg = true → (s'.adj v).length ≤ 2) := by
  unfold ghzStep
  by_cases hc : 2 < (s.adj v).length
  · obtain ⟨p, s', h1, h2, h3, h4, h5⟩ := ghzLoop_ok mg v _ s [v] h.simple le_rfl
    rw [if_pos hc, h1]
    have hp : v ∉ p := fun hp => h.simple.irrefl v (h3 v hp)
    refine ⟨_, rfl, ?_, h2.sub, fun hb => ?_⟩
    · refine h.push h2 _ (edges_star hp) ?_ ?_ ?_
      · intro x hx
        rcases List.mem_cons.1 ((mem_dedup_rev _ _).1 hx) with rfl | hx
        · exact hv
        · exact h.simple.mem x v (h3 x hx)
      · intro e he x hx
        obtain ⟨n, hn, rfl⟩ := List.mem_map.1 ((edges_star hp e).1 he)
        refine (mem_dedup_rev _ _).2 ?_
        rcases Sym2.mem_iff.1 hx with rfl | rfl
        · simp
        · simp [hn]
      · refine ⟨fun _ => star_of v p, ?_, fun _ => ?_, ?_⟩
        · intro hf; exact absurd hf (by simp [createResourceGraph])
        · have hl := length_dedup_rev_le (v :: p)
          rcases h4 with rfl | h4
          · left; exact hl.trans (by simp)
          · right
            refine below_mono ?_ h4
            show (v :: p).reverse.dedup.reverse.length - 1 ≤ _
            simp only [List.length_cons, List.length_nil] at hl ⊢
            omega
        · intro hf; exact absurd hf (by simp [createResourceGraph])
    · show (s'.adj v).length ≤ 2
      by_cases h0 : s'.adj v = []
      · rw [h0]; simp
      exfalso
      obtain ⟨y, hy⟩ := List.exists_mem_of_ne_nil _ h0
      have hyp : y ∉ p := fun hyp => h2.disj _ (List.mem_map_of_mem hyp) ((mem_edges h2.simple v y).2 hy)
      have hnd : (y :: p).Nodup := List.nodup_cons.2 ⟨hyp, List.Nodup.of_map _ h2.nodup⟩
      have hlen : (y :: p).length ≤ (s.adj v).length := by
        refine (hnd.subperm fun x hx => ?_).length_le
        rcases List.mem_cons.1 hx with rfl | hx
        · exact (h2.sub v).subset hy
        · exact h3 x hx
      have := below_mono (k' := [v].length + p.length) (by simp only [List.length_cons, List.length_nil] at hlen ⊢; omega) hb
      rcases h5 with h5 | h5
      · exact h0 h5
      · rw [this] at h5; cases h5
  · rw [if_neg hc]
    exact ⟨s, rfl, h, fun _ => .refl _, fun _ => by omega⟩

theorem ghzFold_ok {g : NxGraph} {mg ml : Option ℕ} {thin : Prop} : ∀ (l : List ℕ) (s : St), Inv g (Shape mg ml thin) s →
    (∀ v ∈ l, v ∈ g.nodes) → ∃ s', l.foldlM (ghzStep mg) s = .ok s' ∧ Inv g (Shape mg ml thin) s' ∧
      (∀ x, (s'.adj x).Sublist (s.adj x)) ∧ ∀ v ∈ l, below (g.adj v).length mg = true → (s'.adj v).length ≤ 2 := by
  intro l
  induction l with
  | nil => intro s h _; exact ⟨s, rfl, h, fun _ => .refl _, by simp⟩
  | cons v l ih =>
    intro s h hl
    obtain ⟨s1, e1, i1, b1, d1⟩ := ghzStep_ok h (hl v (by simp))
    obtain ⟨s2, e2, i2, b2, d2⟩ := ih s1 i1 fun x hx => hl x (by simp [hx])
    refine ⟨s2, ?_, i2, fun x => (b2 x).trans (b1 x), ?_⟩
    · rw [List.foldlM_cons, e1]; exact e2
    · intro x hx hb
      rcases List.mem_cons.1 hx with rfl | hx
      · exact (b2 x).length_le.trans (d1 (below_mono (h.sub x).length_le hb))
      · exact d2 x hx hb

theorem lineGraph_edges {v : ℕ} {p : List ℕ} (h : ∀ x y, s(x, y) ∈ pairs (v :: p) → x ≠ y) (e : Sym2 ℕ) :
    e ∈ (lineGraph (v :: p)).edges ↔ e ∈ pairs (v :: p) := by
  unfold lineGraph
  split
  · rename_i a b c hl
    obtain ⟨rfl, rfl⟩ := List.cons.inj hl
    have h1 : v ≠ b := h v b (by simp [pairs])
    have h2 : b ≠ c := h b c (by simp [pairs])
    rw [edges_star (by simp [h1.symm, h2])]
    simp [pairs, Sym2.eq_swap]
  · rename_i a b hl
    obtain ⟨rfl, rfl⟩ := List.cons.inj hl
    have h1 : v ≠ b := h v b (by simp [pairs])
    rw [edges_star (by simp [h1])]
    simp [pairs]
  · simp [createResourceGraph]

theorem lineGraph_nodes (l : List ℕ) (x : ℕ) : x ∈ (lineGraph l).nodes ↔ x ∈ l := by
  unfold lineGraph
  split
  · simp only [createResourceGraph, mem_dedup_rev, List.mem_cons, List.not_mem_nil, or_false]
    exact or_left_comm
  · simp only [createResourceGraph, mem_dedup_rev]
  · simp only [createResourceGraph, mem_dedup_rev]

theorem lineGraph_shape {mg ml : Option ℕ} {thin : Prop} {v : ℕ} {p : List ℕ} (hp : p = [] ∨ below (1 + p.length - 1) ml = true)
    (ht : thin → (v :: p).Nodup) : Shape mg ml thin (lineGraph (v :: p)) := by
  unfold lineGraph
  split
  · rename_i a b c hl
    refine ⟨fun _ => star_of b [a, c], by simp [createResourceGraph], fun _ => .inl ?_, by simp [createResourceGraph]⟩
    exact (length_dedup_rev_le _).trans (by simp)
  · rename_i a b hl
    refine ⟨fun _ => star_of a [b], by simp [createResourceGraph], fun _ => .inl ?_, by simp [createResourceGraph]⟩
    exact (length_dedup_rev_le _).trans (by simp)
  · refine ⟨by simp [createResourceGraph], fun _ t => ?_, by simp [createResourceGraph], fun _ => ?_⟩
    · refine ⟨dedup_rev_nodup _, fun e => ?_⟩
      simp only [createResourceGraph, dedup_rev_eq (ht t), List.mem_toFinset]
      exact mem_pairs
    · have hl := length_dedup_rev_le (v :: p)
      rcases hp with rfl | hp
      · exact .inl (hl.trans (by simp))
      · right
        refine below_mono ?_ hp
        simp only [createResourceGraph]
        simp only [List.length_cons] at hl
        omega

theorem linStep_ok {g : NxGraph} {mg ml : Option ℕ} {thin : Prop} {s : St} (h : Inv g (Shape mg ml thin) s)
    (ht : thin → ∀ x, (s.adj x).length ≤ 2) {v : ℕ} (hv : v ∈ g.nodes) :
    ∃ s', linStep ml s v = .ok s' ∧ Inv g (Shape mg ml thin) s' ∧ (∀ x, (s'.adj x).Sublist (s.adj x)) ∧
      (below 1 ml = true → (s' = s ∧ (s.adj v).length ≠ 1) ∨ s'.ne < s.ne) := by
  unfold linStep
  by_cases hc : (s.adj v).length = 1
  · have hne : s.ne.toNat = (NxGraph.mk g.nodes s.adj).edges.card := by rw [h.ne]; simp
    obtain ⟨p, s', h1, h2, h3, h4, h5, h6⟩ := linLoop_ok ml s.ne.toNat s v [v] h.simple hne.ge
    rw [if_pos hc, h1]
    have hirr : ∀ x y, s(x, y) ∈ pairs (v :: p) → x ≠ y := by
      rintro x y hxy rfl
      exact h.simple.irrefl x ((mem_edges h.simple x x).1 ((h2.edges _).2 (.inr hxy)))
    refine ⟨_, rfl, ?_, h2.sub, fun hb => .inr ?_⟩
    · refine h.push h2 _ (lineGraph_edges hirr) ?_ ?_ (lineGraph_shape h4 fun t => (h6 (ht t) hc.le).1)
      · intro x hx
        rcases List.mem_cons.1 ((lineGraph_nodes _ _).1 hx) with rfl | hx
        · exact hv
        · exact h3 x hx
      · intro e he x hx
        obtain ⟨i, a, b, ha, hb, rfl⟩ := mem_pairs.1 ((lineGraph_edges hirr e).1 he)
        refine (lineGraph_nodes _ _).2 ?_
        rcases Sym2.mem_iff.1 hx with rfl | rfl
        · exact List.mem_of_getElem? ha
        · exact List.mem_of_getElem? hb
    · show s'.ne < s.ne
      rw [h2.ne]
      have hp := h5 (by omega) (by simpa using hb)
      match p, hp with
      | a :: p, _ =>
        simp only [pairs, List.length_cons]
        push_cast
        omega
  · rw [if_neg hc]
    exact ⟨s, rfl, h, fun _ => .refl _, fun _ => .inl ⟨rfl, hc⟩⟩

theorem linFold_ok {g : NxGraph} {mg ml : Option ℕ} {thin : Prop} : ∀ (l : List ℕ) (s : St), Inv g (Shape mg ml thin) s →
    (thin → ∀ x, (s.adj x).length ≤ 2) → (∀ v ∈ l, v ∈ g.nodes) → ∃ s', l.foldlM (linStep ml) s = .ok s' ∧
      Inv g (Shape mg ml thin) s' ∧ (∀ x, (s'.adj x).Sublist (s.adj x)) ∧
      (below 1 ml = true → (s' = s ∧ ∀ v ∈ l, (s.adj v).length ≠ 1) ∨ s'.ne < s.ne) := by
  intro l
  induction l with
  | nil => intro s h _ _; exact ⟨s, rfl, h, fun _ => .refl _, fun _ => .inl ⟨rfl, by simp⟩⟩
  | cons v l ih =>
    intro s h ht hl
    obtain ⟨s1, e1, i1, b1, d1⟩ := linStep_ok h ht (hl v (by simp))
    obtain ⟨s2, e2, i2, b2, d2⟩ := ih s1 i1 (fun t x => (b1 x).length_le.trans (ht t x)) fun x hx => hl x (by simp [hx])
    refine ⟨s2, ?_, i2, fun x => (b2 x).trans (b1 x), fun hb => ?_⟩
    · rw [List.foldlM_cons, e1]; exact e2
    · rcases d1 hb with ⟨rfl, hv⟩ | d1
      · rcases d2 hb with ⟨rfl, hv2⟩ | d2
        · exact .inl ⟨rfl, fun x hx => (List.mem_cons.1 hx).elim (fun h => h ▸ hv) (hv2 x)⟩
        · exact .inr d2
      · rcases d2 hb with ⟨rfl, -⟩ | d2
        · exact .inr d1
        · exact .inr (d2.trans d1)

theorem cycleStep_ok {g : NxGraph} {mg ml : Option ℕ} {thin : Prop} {s : St} (h : Inv g (Shape mg ml thin) s) :
    ∀ l : List ℕ, (∀ v ∈ l, v ∈ g.nodes) → ∃ s', cycleStep s l = .ok s' ∧ Inv g (Shape mg ml thin) s' ∧
      (∀ x, (s'.adj x).Sublist (s.adj x)) ∧ ((s' = s ∧ ∀ v ∈ l, (s.adj v).length ≠ 2) ∨ s'.ne < s.ne) := by
  intro l
  induction l with
  | nil => intro _; exact ⟨s, rfl, h, fun _ => .refl _, .inl ⟨rfl, by simp⟩⟩
  | cons v l ih =>
    intro hl
    unfold cycleStep
    split
    · rename_i a b hab
      have hnd : (s.adj v).Nodup := h.simple.adj v
      have ha : a ∈ s.adj v := by simp [hab]
      have hb : b ∈ s.adj v := by simp [hab]
      have hne : a ≠ b := by rw [hab] at hnd; simpa using hnd
      have hva : v ≠ a := by rintro rfl; exact h.simple.irrefl _ ha
      have hvb : v ≠ b := by rintro rfl; exact h.simple.irrefl _ hb
      have hva' : v ∈ s.adj a := h.simple.symm _ _ ha
      have hvb' : v ∈ s.adj b := h.simple.symm _ _ hb
      have t1 := taken_rm h.simple ha
      have t2 := taken_rm (s := { s with adj := rm s.adj v a, ne := s.ne - 1 }) t1.simple (v := v) (n := b) (by
        simp only [mem_rm h.simple hva]
        refine ⟨hb, ?_⟩
        rw [Ne, Sym2.eq_iff]
        rintro (⟨-, h⟩ | ⟨h, -⟩)
        · exact hne h.symm
        · exact hva h)
      have t3 := t1.trans t2
      rw [if_neg (by simpa using hva')]
      simp only
      rw [Function.update_of_ne hne.symm, if_neg (by simpa using hvb')]
      have hadj : Function.update (Function.update (Function.update s.adj a ((s.adj a).erase v)) b ((s.adj b).erase v)) v
          ((((Function.update (Function.update s.adj a ((s.adj a).erase v)) b ((s.adj b).erase v)) v).erase a).erase b) =
          rm (rm s.adj v a) v b := by
        rw [Function.update_of_ne hvb, Function.update_of_ne hva]
        funext x
        unfold rm
        by_cases hxv : x = v
        · subst hxv; simp
        · rw [Function.update_of_ne hxv, if_neg hxv]
          by_cases hxb : x = b
          · subst hxb
            rw [Function.update_self, if_pos rfl, if_neg hxv, if_neg hne.symm]
          · rw [Function.update_of_ne hxb, if_neg hxb, if_neg hxv]
            by_cases hxa : x = a
            · subst hxa; rw [Function.update_self, if_pos rfl]
            · rw [Function.update_of_ne hxa, if_neg hxa]
      have hes : ∀ e, e ∈ (createResourceGraph [v, a, b] (some v)).edges ↔ e ∈ [s(v, a)] ++ [s(v, b)] := by
        intro e
        rw [edges_star (by simp [hva, hvb])]
        simp
      have := h.push t3 (createResourceGraph [v, a, b] (some v)) hes ?_ ?_ ?_
      · refine ⟨_, rfl, ?_, ?_, .inr (by show s.ne - 2 < s.ne; omega)⟩
        · convert this using 2
          simp only [hadj]
          rw [sub_sub]
          rfl
        · intro x
          simp only [hadj]
          exact t3.sub x
      · intro x hx
        have hx := (mem_dedup_rev _ _).1 hx
        simp only [List.mem_cons, List.not_mem_nil, or_false] at hx
        rcases hx with rfl | rfl | rfl
        · exact hl _ (by simp)
        · exact h.simple.mem _ _ ha
        · exact h.simple.mem _ _ hb
      · intro e he x hx
        refine (mem_dedup_rev _ _).2 ?_
        have he := (hes e).1 he
        simp only [List.cons_append, List.nil_append, List.mem_cons, List.not_mem_nil, or_false] at he
        rcases he with rfl | rfl
        · rcases Sym2.mem_iff.1 hx with rfl | rfl <;> simp
        · rcases Sym2.mem_iff.1 hx with rfl | rfl <;> simp
      · refine ⟨fun _ => star_of v [a, b], by simp [createResourceGraph], fun _ => .inl ?_, by simp [createResourceGraph]⟩
        exact (length_dedup_rev_le _).trans (by simp)
    · rename_i hn
      obtain ⟨s', e, i, b, d⟩ := ih fun x hx => hl x (by simp [hx])
      refine ⟨s', e, i, b, ?_⟩
      rcases d with ⟨rfl, d⟩ | d
      · refine .inl ⟨rfl, fun x hx => ?_⟩
        rcases List.mem_cons.1 hx with rfl | hx
        · intro h2
          obtain ⟨a, b, hab⟩ := List.length_eq_two.1 h2
          exact hn a b hab
        · exact d x hx
      · exact .inr d

theorem mainLoop_ok {g : NxGraph} {mg ml : Option ℕ} {thin : Prop} : ∀ (k : ℕ) (s : St), Inv g (Shape mg ml thin) s →
    (thin → ∀ x, (s.adj x).length ≤ 2) → ∃ o, mainLoop g.nodes ml k s = .ok o ∧
      (∀ L, o = some L → ∃ s', Inv g (Shape mg ml thin) s' ∧ s'.ne = 0 ∧ L = s'.out) ∧
      (thin → below 1 ml = true → s.ne ≤ k → o.isSome) := by
  intro k
  induction k with
  | zero =>
    intro s h ht
    unfold mainLoop
    by_cases hc : s.ne ≠ 0
    · rw [if_pos hc]
      refine ⟨none, rfl, by simp, fun _ _ hk => ?_⟩
      have := h.ne
      omega
    · rw [if_neg hc]
      exact ⟨_, rfl, fun L hL => ⟨s, h, not_not.1 hc, (Option.some.inj hL).symm⟩, by simp⟩
  | succ k ih =>
    intro s h ht
    unfold mainLoop
    by_cases hc : s.ne ≠ 0
    · rw [if_pos hc]
      obtain ⟨s1, e1, i1, b1, d1⟩ := linFold_ok g.nodes s h ht fun _ h => h
      obtain ⟨s2, e2, i2, b2, d2⟩ := cycleStep_ok i1 g.nodes fun _ h => h
      obtain ⟨o, e3, h3, d3⟩ := ih s2 i2 fun t x => ((b2 x).trans (b1 x)).length_le.trans (ht t x)
      refine ⟨o, by simp only [e1, e2, e3], h3, fun t hb hk => d3 t hb ?_⟩
      have hlt : s2.ne < s.ne := by
        rcases d1 hb with ⟨rfl, hd1⟩ | d1
        · rcases d2 with ⟨rfl, hd2⟩ | d2
          · exfalso
            obtain ⟨e, he⟩ : (NxGraph.mk g.nodes s2.adj).edges.Nonempty := by
              rw [Finset.nonempty_iff_ne_empty]
              intro h0
              have := h.ne
              rw [h0] at this
              exact hc this
            induction e using Sym2.ind with
            | _ x y =>
              have hy : y ∈ s2.adj x := (mem_edges h.simple x y).1 he
              have hx : x ∈ g.nodes := h.simple.mem x y (h.simple.symm _ _ hy)
              have := List.length_pos_of_mem hy
              have := ht t x
              have := hd1 x hx
              have := hd2 x hx
              omega
          · exact d2
        · rcases d2 with ⟨rfl, -⟩ | d2
          · exact d1
          · exact d2.trans d1
      push_cast at hk
      omega
    · rw [if_neg hc]
      exact ⟨_, rfl, fun L hL => ⟨s, h, not_not.1 hc, (Option.some.inj hL).symm⟩, by simp⟩

theorem start_inv {g : NxGraph} (hg : g.Simple) (mg ml : Option ℕ) (thin : Prop) : Inv g (Shape mg ml thin) (start g) where
  simple := hg
  ne := numberOfEdges_eq hg
  edges e := by
    refine ⟨.inl, ?_⟩
    rintro (h | ⟨r, hr, h⟩)
    · exact h
    · simp only [start, List.mem_map] at hr
      obtain ⟨v, -, rfl⟩ := hr
      rw [edges_star (by simp)] at h
      simp at h
  disj r hr := by
    simp only [start, List.mem_map] at hr
    obtain ⟨v, -, rfl⟩ := hr
    rw [Finset.disjoint_left]
    intro e he
    rw [edges_star (by simp)] at he
    simp at he
  pairwise := by
    show (List.map _ _).Pairwise _
    rw [List.pairwise_map]
    refine List.pairwise_of_forall fun x y => ?_
    rw [Finset.disjoint_left]
    intro e he
    rw [edges_star (by simp)] at he
    simp at he
  nodes r hr x hx := by
    simp only [start, List.mem_map] at hr
    obtain ⟨v, hv, rfl⟩ := hr
    have := (mem_dedup_rev _ _).1 hx
    rw [List.mem_singleton] at this
    subst this
    exact (List.mem_filter.1 hv).1
  ends r hr e he := by
    simp only [start, List.mem_map] at hr
    obtain ⟨v, -, rfl⟩ := hr
    rw [edges_star (by simp)] at he
    simp at he
  isolated v hv h0 :=
    ⟨createResourceGraph [v] (some v), by
      simp only [start, List.mem_map]
      exact ⟨v, by simp [hv, h0], rfl⟩, (mem_dedup_rev _ _).2 (by simp)⟩
  q r hr := by
    simp only [start, List.mem_map] at hr
    obtain ⟨v, -, rfl⟩ := hr
    refine ⟨fun _ => star_of v [], by simp [createResourceGraph], fun _ => .inl ?_, by simp [createResourceGraph]⟩
    exact (length_dedup_rev_le _).trans (by simp)
  sub x := .refl _

theorem main {g : NxGraph} (hg : g.Simple) (mg ml : Option ℕ) (fuel : ℕ) :
    ∃ o, graphToFusionNetwork g mg ml fuel = .ok o ∧
      (∀ L, o = some L → ∃ s, Inv g (Shape mg ml (∀ v, below (g.adj v).length mg = true)) s ∧ s.ne = 0 ∧ L = s.out) ∧
      ((∀ v, below (g.adj v).length mg = true) → below 1 ml = true → g.edges.card ≤ fuel → o.isSome) := by
  obtain ⟨s, e, i, b, d⟩ := ghzFold_ok (roots g) (start g) (start_inv hg mg ml (∀ v, below (g.adj v).length mg = true))
    fun v hv => by
      rw [roots, List.mem_mergeSort] at hv
      exact (List.mem_filter.1 hv).1
  have ht : (∀ v, below (g.adj v).length mg = true) → ∀ x, (s.adj x).length ≤ 2 := by
    intro t x
    by_cases hx : x ∈ roots g
    · exact d x hx (t x)
    · have hle := (b x).length_le
      simp only [start] at hle
      refine hle.trans (not_lt.1 fun h2 => hx ?_)
      rw [roots, List.mem_mergeSort, List.mem_filter]
      refine ⟨?_, by simpa using h2⟩
      obtain ⟨y, hy⟩ := List.exists_mem_of_ne_nil (g.adj x) (List.ne_nil_of_length_pos (by omega))
      exact hg.mem x y (hg.symm _ _ hy)
  obtain ⟨o, e', h', d'⟩ := mainLoop_ok fuel s i ht
  refine ⟨o, by simp only [graphToFusionNetwork, e, e'], h', fun t hb hk => d' t hb ?_⟩
  rw [i.ne]
  refine le_trans ?_ (Nat.cast_le.2 hk)
  refine Nat.cast_le.2 (Finset.card_le_card fun e he => (i.edges e).2 (.inl he))

/-- The network is finished: the model's bound on the number of turns is large enough. -/
def Finishes (g : NxGraph) (maxGhz maxLin : Option ℕ) (L : List ResourceGraph) : Prop :=
  ∃ fuel, graphToFusionNetwork g maxGhz maxLin fuel = .ok (some L)

/-- **C50.** When `graph_to_fusion_network` returns, whatever the bounds: the sets of edges of the resource graphs form a
partition of the edges of the graph, and their nodes cover those of the graph; the resource graphs of type GHZ are stars. -/
theorem C50_partition (g : NxGraph) (hg : g.Simple) (maxGhz maxLin : Option ℕ) (L : List ResourceGraph)
    (h : Finishes g maxGhz maxLin L) :
    L.Pairwise (fun r r' => Disjoint r.edges r'.edges) ∧ (∀ e, e ∈ g.edges ↔ ∃ r ∈ L, e ∈ r.edges) ∧
    (∀ v, v ∈ g.nodes ↔ ∃ r ∈ L, v ∈ r.nodes) ∧ (∀ r ∈ L, ∀ e ∈ r.edges, ∀ x ∈ e, x ∈ r.nodes) ∧
    (∀ r ∈ L, r.ghz = true → r.IsStar) := by
  obtain ⟨fuel, h⟩ := h
  obtain ⟨o, e, h1, -⟩ := main hg maxGhz maxLin fuel
  rw [h] at e
  obtain ⟨s, i, hne, rfl⟩ := h1 L (Except.ok.inj e).symm
  have h0 : (NxGraph.mk g.nodes s.adj).edges = ∅ := by
    rw [← Finset.card_eq_zero]
    have := i.ne
    omega
  have hedges : ∀ e, e ∈ g.edges ↔ ∃ r ∈ s.out, e ∈ r.edges := fun e => by rw [i.edges, h0]; simp
  refine ⟨i.pairwise, hedges, fun v => ⟨fun hv => ?_, fun ⟨r, hr, hv⟩ => i.nodes r hr v hv⟩, i.ends, fun r hr => (i.q r hr).star⟩
  by_cases hv0 : g.adj v = []
  · exact i.isolated v hv hv0
  · obtain ⟨y, hy⟩ := List.exists_mem_of_ne_nil _ hv0
    obtain ⟨r, hr, he⟩ := (hedges _).1 ((mem_edges hg v y).2 hy)
    exact ⟨r, hr, i.ends r hr _ he v (by simp)⟩

/-- **C50.** `graph_to_fusion_network` never raises on a graph without self-loops. -/
theorem C50_no_error (g : NxGraph) (hg : g.Simple) (maxGhz maxLin : Option ℕ) (fuel : ℕ) :
    ∃ o, graphToFusionNetwork g maxGhz maxLin fuel = .ok o :=
  (main hg maxGhz maxLin fuel).imp fun _ h => h.1

/-- **C50.** With lines of at least two nodes and a bound on the GHZ clusters above all the degrees (in particular with
the default arguments), `graph_to_fusion_network` terminates, and the resource graphs of type LINEAR are lines. -/
theorem C50_terminates (g : NxGraph) (hg : g.Simple) (maxGhz maxLin : Option ℕ)
    (h1 : ∀ m, maxGhz = some m → ∀ v, (g.adj v).length < m) (h2 : ∀ m, maxLin = some m → 2 ≤ m) :
    ∃ L, Finishes g maxGhz maxLin L ∧ ∀ r ∈ L, r.ghz = false → r.IsPath := by
  have t : ∀ v, below (g.adj v).length maxGhz = true := by
    intro v
    cases maxGhz with
    | none => rfl
    | some m => simpa [below] using h1 m rfl v
  have hb : below 1 maxLin = true := by
    cases maxLin with
    | none => rfl
    | some m => exact decide_eq_true (h2 m rfl)
  obtain ⟨o, e, h3, h4⟩ := main hg maxGhz maxLin g.edges.card
  obtain ⟨L, rfl⟩ := Option.isSome_iff_exists.1 (h4 t hb le_rfl)
  obtain ⟨s, i, -, rfl⟩ := h3 L rfl
  exact ⟨s.out, ⟨_, e⟩, fun r hr hl => (i.q r hr).line hl t⟩

/-- **C50.** The sizes: at most `max_lin` for the lines, at most `max_ghz` or 3 for the GHZ clusters. -/
theorem C50_sizes (g : NxGraph) (hg : g.Simple) (maxGhz maxLin : Option ℕ) (L : List ResourceGraph)
    (h : Finishes g maxGhz maxLin L) :
    (∀ m, maxGhz = some m → ∀ r ∈ L, r.ghz = true → r.nodes.length ≤ max 3 m) ∧
    (∀ m, maxLin = some m → ∀ r ∈ L, r.ghz = false → r.nodes.length ≤ max 1 m) := by
  obtain ⟨fuel, h⟩ := h
  obtain ⟨o, e, h1, -⟩ := main hg maxGhz maxLin fuel
  rw [h] at e
  obtain ⟨s, i, hne, rfl⟩ := h1 L (Except.ok.inj e).symm
  constructor
  · rintro m rfl r hr hl
    have := (i.q r hr).ghzSize hl
    simp only [below, decide_eq_true_eq] at this
    omega
  · rintro m rfl r hr hl
    have := (i.q r hr).linSize hl
    simp only [below, decide_eq_true_eq] at this
    omega

theorem mainLoop_succ (nodes : List ℕ) (ml : Option ℕ) (L : List ResourceGraph) : ∀ (k : ℕ) (s : St),
    mainLoop nodes ml k s = .ok (some L) → mainLoop nodes ml (k + 1) s = .ok (some L) := by
  intro k
  induction k with
  | zero =>
    intro s h
    unfold mainLoop at h ⊢
    by_cases hc : s.ne ≠ 0
    · rw [if_pos hc] at h
      simp at h
    · rw [if_neg hc] at h ⊢
      exact h
  | succ k ih =>
    intro s h
    rw [mainLoop] at h ⊢
    by_cases hc : s.ne ≠ 0
    · rw [if_pos hc] at h ⊢
      revert h
      split
      · simp
      · split
        · simp
        · exact ih _
    · rw [if_neg hc] at h ⊢
      exact h

/-- **C50.** The result does not depend on the bound of the model on the number of turns. -/
theorem C50_deterministic (g : NxGraph) (maxGhz maxLin : Option ℕ) (L L' : List ResourceGraph)
    (h : Finishes g maxGhz maxLin L) (h' : Finishes g maxGhz maxLin L') : L = L' := by
  obtain ⟨k, h⟩ := h
  obtain ⟨k', h'⟩ := h'
  unfold graphToFusionNetwork at h h'
  revert h h'
  split
  · simp
  · intro h h'
    have key : ∀ j k s L, mainLoop g.nodes maxLin k s = .ok (some L) → mainLoop g.nodes maxLin (k + j) s = .ok (some L) := by
      intro j
      induction j with
      | zero => exact fun _ _ _ h => h
      | succ j ih => exact fun k s L h => mainLoop_succ _ _ _ _ _ (ih k s L h)
    have a := key k' k _ _ h
    have b := key k k' _ _ h'
    rw [add_comm, a] at b
    simpa using b

/-- The complete graph on `n` nodes. -/
def complete (n : ℕ) : NxGraph := ⟨List.range n, fun v => if v < n then (List.range n).filter (· ≠ v) else []⟩

theorem complete_simple (n : ℕ) : (complete n).Simple where
  nodes := List.nodup_range
  adj v := by
    show (if v < n then _ else _ : List ℕ).Nodup
    split
    · exact List.nodup_range.filter _
    · simp
  irrefl v := by
    show v ∉ (if v < n then _ else _ : List ℕ)
    split <;> simp
  symm u v := by
    show u ∈ (if v < n then _ else _ : List ℕ) → v ∈ (if u < n then _ else _ : List ℕ)
    split
    · rename_i hv
      intro h
      simp only [ne_eq, decide_not, List.mem_filter, List.mem_range, Bool.not_eq_eq_eq_not, Bool.not_true, decide_eq_false_iff_not] at h
      rw [if_pos h.1]
      simp [hv, Ne.symm h.2]
    · simp
  mem u v := by
    show u ∈ (if v < n then _ else _ : List ℕ) → _
    split
    · intro h
      exact (List.mem_filter.1 h).1
    · simp

theorem roots_eq {g : NxGraph} (h : (g.nodes.filter fun v => 2 < (g.adj v).length).Pairwise
    fun a b => decide ((g.adj b).length ≤ (g.adj a).length) = true) : roots g = g.nodes.filter fun v => 2 < (g.adj v).length :=
  List.mergeSort_of_pairwise h

theorem finishes_of {g : NxGraph} {mg ml : Option ℕ} (k : ℕ) (h : (g.nodes.filter fun v => 2 < (g.adj v).length).Pairwise
    fun a b => decide ((g.adj b).length ≤ (g.adj a).length) = true) {s : St} {L : List ResourceGraph}
    (hs : (g.nodes.filter fun v => 2 < (g.adj v).length).foldlM (ghzStep mg) (start g) = .ok s)
    (hm : mainLoop g.nodes ml k s = .ok (some L)) : Finishes g mg ml L :=
  ⟨k, by simp only [graphToFusionNetwork, roots_eq h, hs, hm]⟩

/-- The complete graph with five nodes, with the default bounds: four clusters for ten edges. -/
example : ∃ L, Finishes (complete 5) none none L ∧ L.map (fun r => r.nodes) = [[0, 4, 3, 2, 1], [1, 4, 3, 2], [2, 3, 4], [3, 4]] ∧
    (complete 5).edges.card = 10 :=
  ⟨_, finishes_of 5 (by decide) rfl rfl, rfl, by decide⟩

/-- The graph with the given lists of neighbours. -/
def ofLists (ls : List (List ℕ)) : NxGraph := ⟨List.range ls.length, fun v => ls[v]?.getD []⟩

theorem ofLists_simple {ls : List (List ℕ)} (h : ∀ v < ls.length, (ls[v]?.getD []).Nodup ∧ v ∉ ls[v]?.getD [] ∧
    ∀ u ∈ ls[v]?.getD [], u < ls.length ∧ v ∈ ls[u]?.getD []) : (ofLists ls).Simple := by
  have hz : ∀ v, ¬ v < ls.length → ls[v]?.getD [] = [] := fun v hv => by rw [List.getElem?_eq_none (by omega)]; rfl
  refine ⟨List.nodup_range, fun v => ?_, fun v => ?_, fun u v => ?_, fun u v => ?_⟩ <;> simp only [ofLists]
  · by_cases hv : v < ls.length
    · exact (h v hv).1
    · rw [hz v hv]; simp
  · by_cases hv : v < ls.length
    · exact (h v hv).2.1
    · rw [hz v hv]; simp
  · by_cases hv : v < ls.length
    · exact fun hu => ((h v hv).2.2 u hu).2
    · rw [hz v hv]; simp
  · by_cases hv : v < ls.length
    · exact fun hu => List.mem_range.2 ((h v hv).2.2 u hu).1
    · rw [hz v hv]; simp

/-- A line and a triangle, with the default bounds: a cluster of type LINEAR and two clusters of type GHZ. -/
example : (ofLists [[1], [0, 2], [1, 3], [2], [5, 6], [4, 6], [4, 5]]).Simple ∧
    ∃ L, Finishes (ofLists [[1], [0, 2], [1, 3], [2], [5, 6], [4, 6], [4, 5]]) none none L ∧
      L.map (fun r => (r.ghz, r.nodes)) = [(false, [0, 1, 2, 3]), (true, [4, 5, 6]), (true, [5, 6])] :=
  ⟨ofLists_simple (by decide), _, finishes_of 5 (by decide) rfl rfl, rfl⟩

theorem mainLoop_stuck (nodes : List ℕ) (ml : Option ℕ) (s : St) (h0 : s.ne ≠ 0) (h1 : nodes.foldlM (linStep ml) s = .ok s)
    (h2 : cycleStep s nodes = .ok s) : ∀ k, mainLoop nodes ml k s = .ok none := by
  intro k
  induction k with
  | zero => rw [mainLoop, if_pos h0]
  | succ k ih => rw [mainLoop, if_pos h0, h1]; simp only [h2, ih]

/-- **C50.** `graph_to_fusion_network` loops forever for some bounds: on the complete graph with six nodes and `max_ghz=3`,
the GHZ clusters leave a complete graph with four nodes, in which there is neither an end of line nor a node with two
neighbours. -/
theorem C50_loops_forever : (complete 6).Simple ∧ ∀ L, ¬ Finishes (complete 6) (some 3) none L := by
  refine ⟨complete_simple 6, ?_⟩
  rintro L ⟨fuel, h⟩
  unfold graphToFusionNetwork at h
  rw [roots_eq (by decide)] at h
  obtain ⟨s, hs, s1, hs1, s2, hs2, hne, hne2, hstuck1, hstuck2⟩ : ∃ s, ((complete 6).nodes.filter fun v => 2 < ((complete 6).adj v).length).foldlM
      (ghzStep (some 3)) (start (complete 6)) = .ok s ∧ ∃ s1, (complete 6).nodes.foldlM (linStep none) s = .ok s1 ∧
      ∃ s2, cycleStep s1 (complete 6).nodes = .ok s2 ∧ s.ne ≠ 0 ∧ s2.ne ≠ 0 ∧
      (complete 6).nodes.foldlM (linStep none) s2 = .ok s2 ∧ cycleStep s2 (complete 6).nodes = .ok s2 :=
    ⟨_, rfl, _, rfl, _, rfl, by decide, by decide, rfl, rfl⟩
  rw [hs] at h
  simp only at h
  cases fuel with
  | zero => rw [mainLoop, if_pos hne] at h; cases h
  | succ k =>
    rw [mainLoop, if_pos hne, hs1] at h
    simp only [hs2] at h
    rw [mainLoop_stuck _ _ _ hne2 hstuck1 hstuck2] at h
    cases h

/-- **C50.** `max_ghz` is not always a bound on the size of the GHZ clusters: a triangle gives a cluster of size 3 with
`max_ghz=2`. -/
theorem C50_size_wrong : ∃ L, Finishes (complete 3) (some 2) none L ∧ ∃ r ∈ L, r.ghz = true ∧ r.nodes.length = 3 :=
  ⟨_, finishes_of 2 (by decide) rfl rfl, _, List.mem_cons_self .., rfl, rfl⟩

/-- **C50.** A resource graph of type LINEAR is not always a line: when the node 0 has the neighbours 1, …, 5 and 2 and 3 are
neighbours, `max_ghz=3` gives the cluster with the edges 1-0, 0-3, 3-2 and 2-0, which has a cycle. -/
theorem C50_line_wrong : (ofLists [[1, 2, 3, 4, 5], [0], [0, 3], [0, 2], [0], [0]]).Simple ∧
    ∃ L, Finishes (ofLists [[1, 2, 3, 4, 5], [0], [0, 3], [0, 2], [0], [0]]) (some 3) none L ∧
      ∃ r ∈ L, r.ghz = false ∧ ¬ r.IsPath ∧ r.edges = {s(0, 1), s(0, 3), s(2, 3), s(0, 2)} := by
  refine ⟨ofLists_simple (by decide), _, finishes_of 5 (by decide) rfl rfl, createResourceGraph [1, 0, 3, 2, 0] none,
    ?_, rfl, ?_, by decide⟩
  · refine List.mem_cons_of_mem _ (List.mem_cons.2 (.inl ?_))
    rfl
  rintro ⟨-, h⟩
  have hn : (createResourceGraph [1, 0, 3, 2, 0] none).nodes = [1, 0, 3, 2] := rfl
  rw [hn] at h
  obtain ⟨i, a, b, ha, hb, he⟩ := (h s(0, 2)).1 (by decide)
  match i with
  | 0 => simp at ha hb; subst ha; subst hb; revert he; decide
  | 1 => simp at ha hb; subst ha; subst hb; revert he; decide
  | 2 => simp at ha hb; subst ha; subst hb; revert he; decide
  | i + 3 => simp at hb

/-- **C50.** `fusion_nodes`: the nodes that two different clusters share. -/
theorem C50_fusion_nodes (c1 c2 : ResourceGraph) (h : ¬ (c1.ghz = c2.ghz ∧ c1.nodes.toFinset = c2.nodes.toFinset ∧ c1.edges = c2.edges))
    (x : ℕ) : x ∈ fusionNodes c1 c2 ↔ x ∈ c1.nodes ∧ x ∈ c2.nodes := by
  rw [fusionNodes, if_neg h]
  simp

/-- Two clusters of the complete graph with five nodes. -/
example : fusionNodes (createResourceGraph [0, 4, 3, 2, 1] (some 0)) (createResourceGraph [2, 3, 4] (some 2)) = [4, 3, 2] := by decide

end Fusion
end Graphix
