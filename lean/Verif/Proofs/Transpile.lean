import Verif.Model.Transpile
import Verif.Props.CircuitBasis
import Verif.Props.FlowOrder
import Verif.Props.Determinism

/-!
# The loop of `transpile_to_causalflow`
-/

namespace Graphix

open Function

theorem PyDict.set_append {α β : Type} [DecidableEq α] (d : PyDict α β) (k : α) (v : β) (h : k ∉ d.keys) :
    PyDict.set d k v = d ++ [(k, v)] := by
  induction d with
  | nil => rfl
  | cons kv d ih =>
    obtain ⟨k', v'⟩ := kv
    simp only [PyDict.keys, List.map_cons, List.mem_cons, not_or] at h
    unfold PyDict.set
    rw [if_neg (fun h' => h.1 h'.symm)]
    rw [ih h.2]; rfl

/-- Invariant of the loop: `σ q` is the node that carries qubit `q` (for a measured qubit, the node of its measurement),
`act` the qubits not yet measured, `ms` the measurements met so far. -/
structure JInv (w : ℕ) (act : Finset ℕ) (σ : ℕ → ℕ) (ms : List (ℕ × Axis)) (st : JczState) : Prop where
  len : st.indices.length = w
  act_lt : ∀ q ∈ act, q < w
  idx : ∀ q < w, st.indices[q]? = some (if q ∈ act then some (σ q) else none)
  cls : st.classical = ms.map fun qa => (σ qa.1, qa.2)
  ms_nodup : (ms.map Prod.fst).Nodup
  ms_mem : ∀ q, q ∈ ms.map Prod.fst ↔ q < w ∧ q ∉ act
  inj : ∀ q < w, ∀ q' < w, σ q = σ q' → q = q'
  lt : ∀ q < w, σ q < st.nNodes
  wle : w ≤ st.nNodes
  nodes : st.nodes = Finset.range st.nNodes
  meas : ∀ n, n ∈ st.measurements.keys ↔ n < st.nNodes ∧ ∀ q < w, σ q ≠ n
  mknd : st.measurements.keys.Nodup
  mxy : ∀ n m, st.measurements.get? n = some m → ∃ θ, m = .bloch ⟨θ, .XY⟩
  xk : st.x.keys = st.measurements.keys
  xs : ∀ u s, st.x.get? u = some s → ∃ n, s = {n} ∧ w ≤ n ∧ u < n ∧ n < st.nNodes ∧ hasEdge st.edges u n
  xinj : ∀ u u' s, st.x.get? u = some s → st.x.get? u' = some s → u = u'
  emem : ∀ e ∈ st.edges, e.1 < st.nNodes ∧ e.2 < st.nNodes ∧ e.1 ≠ e.2
  eonce : st.edges.Pairwise fun e e' => e ≠ e' ∧ e ≠ (e'.2, e'.1)
  etime : ∀ a b n, hasEdge st.edges a b → st.x.get? a = some {n} → b ≤ n

namespace JInv

variable {w : ℕ} {act : Finset ℕ} {σ : ℕ → ℕ} {ms : List (ℕ × Axis)} {st : JczState}

theorem init (w : ℕ) : JInv w (Finset.range w) id [] (JczState.init w) where
  len := by simp [JczState.init]
  act_lt := by simp
  idx := by intro q hq; simp [JczState.init, hq]
  cls := rfl
  ms_nodup := by simp
  ms_mem := by simp
  inj := by simp
  lt := by simp [JczState.init]
  wle := le_refl _
  nodes := rfl
  meas := by intro n; simp [JczState.init, PyDict.keys]
  mknd := by simp [JczState.init, PyDict.keys]
  mxy := by intro n m h; cases h
  xk := rfl
  xs := by intro n m h; cases h
  xinj := by intro n m s h; cases h
  emem := by simp [JczState.init]
  eonce := by simp [JczState.init]
  etime := by intro a b n h; simp [JczState.init, hasEdge] at h

theorem index_ok (h : JInv w act σ ms st) {q : ℕ} (hq : q ∈ act) : st.index q = .ok (σ q) := by
  unfold JczState.index
  rw [h.idx q (h.act_lt q hq), if_pos hq]

/-- The current node of a qubit is not measured in the open graph. -/
theorem not_meas (h : JInv w act σ ms st) {q : ℕ} (hq : q < w) : σ q ∉ st.measurements.keys := by
  rw [h.meas]; rintro ⟨-, h'⟩; exact h' q hq rfl

theorem step_M (h : JInv w act σ ms st) {t : ℕ} (ht : t ∈ act) (a : Axis) :
    ∃ st', st.step (.M t a) = .ok st' ∧ JInv w (act.erase t) σ (ms ++ [(t, a)]) st' ∧ st'.measurements = st.measurements ∧
      st'.edges = st.edges ∧ st'.nNodes = st.nNodes := by
  refine ⟨{ st with classical := st.classical.set (σ t) a, indices := st.indices.set t none },
    by simp only [JczState.step, h.index_ok ht, bind, Except.bind, pure, Except.pure], ?_, rfl, rfl, rfl⟩
  have htm : t ∉ ms.map Prod.fst := by rw [h.ms_mem]; exact fun h' => h'.2 ht
  have htw := h.act_lt t ht
  have hms : ∀ qa ∈ ms, qa.1 < w := fun qa hqa => ((h.ms_mem qa.1).1 (List.mem_map_of_mem hqa)).1
  refine { h with len := by simp [h.len], act_lt := fun q hq => h.act_lt q (Finset.mem_of_mem_erase hq), idx := ?_, cls := ?_, ms_nodup := ?_, ms_mem := ?_ }
  · intro q hq
    rw [List.getElem?_set]
    by_cases hqt : t = q
    · subst hqt; simp [h.len, hq]
    · rw [if_neg hqt, h.idx q hq]
      have : q ∈ act.erase t ↔ q ∈ act := by simp [Finset.mem_erase, Ne.symm hqt]
      simp only [this]
  · simp only
    rw [PyDict.set_append, h.cls]; · simp
    rw [h.cls]
    intro hk
    simp only [PyDict.keys, List.map_map, List.mem_map, Function.comp] at hk
    obtain ⟨qa, hqa, he⟩ := hk
    have := h.inj _ (hms qa hqa) _ htw he
    exact htm (List.mem_map.2 ⟨qa, hqa, this⟩)
  · rw [List.map_append, List.nodup_append]
    refine ⟨h.ms_nodup, by simp, ?_⟩
    intro a ha b hb
    simp at hb; subst hb
    rintro rfl; exact htm ha
  · intro q
    rw [List.map_append, List.mem_append, h.ms_mem]
    simp only [List.map_cons, List.map_nil, List.mem_singleton, Finset.mem_erase, not_and]
    by_cases hqt : q = t
    · subst hqt; simp [htw]
    · simp [hqt]

theorem hasEdge_append {es : List (ℕ × ℕ)} {a b u v : ℕ} :
    hasEdge (es ++ [(a, b)]) u v ↔ hasEdge es u v ∨ (u = a ∧ v = b) ∨ (u = b ∧ v = a) := by
  unfold hasEdge; simp only [List.mem_append, List.mem_singleton, Prod.mk.injEq]; tauto

theorem hasEdge_remove {es : List (ℕ × ℕ)} {a b u v : ℕ} :
    hasEdge (removeEdge es a b) u v ↔ hasEdge es u v ∧ ¬ (u = a ∧ v = b) ∧ ¬ (u = b ∧ v = a) := by
  unfold hasEdge removeEdge; simp only [List.mem_filter, ne_eq, decide_eq_true_eq, Prod.mk.injEq]; tauto

theorem hasEdge_symm {es : List (ℕ × ℕ)} {u v : ℕ} : hasEdge es u v ↔ hasEdge es v u := or_comm

theorem edge_lt (h : JInv w act σ ms st) {u v : ℕ} (he : hasEdge st.edges u v) : u < st.nNodes ∧ v < st.nNodes ∧ u ≠ v := by
  rcases he with he | he
  · exact h.emem _ he
  · obtain ⟨h1, h2, h3⟩ := h.emem _ he; exact ⟨h2, h1, h3.symm⟩

theorem once_append {es : List (ℕ × ℕ)} {a b : ℕ} (h : es.Pairwise fun e e' => e ≠ e' ∧ e ≠ (e'.2, e'.1))
    (hn : ¬ hasEdge es a b) : (es ++ [(a, b)]).Pairwise fun e e' => e ≠ e' ∧ e ≠ (e'.2, e'.1) := by
  rw [List.pairwise_append]
  refine ⟨h, by simp, ?_⟩
  intro e he e' he'
  simp only [List.mem_singleton] at he'; subst he'
  constructor
  · rintro rfl; exact hn (Or.inl he)
  · rintro rfl; exact hn (Or.inr he)

theorem step_J (h : JInv w act σ ms st) {t : ℕ} (ht : t ∈ act) (θ : ℝ) :
    ∃ st', st.step (.J t θ) = .ok st' ∧ JInv w act (update σ t st.nNodes) ms st' ∧
      st'.measurements = st.measurements ++ [(σ t, .bloch ⟨normalizeAngle (-θ), .XY⟩)] ∧
      st'.edges = st.edges ++ [(σ t, st.nNodes)] ∧ st'.nNodes = st.nNodes + 1 := by
  have htw := h.act_lt t ht
  have hlt := h.lt t htw
  have hno : ¬ hasEdge st.edges (σ t) st.nNodes := fun he => absurd (h.edge_lt he).2.1 (lt_irrefl _)
  have hadd : addGraphEdge st.edges (σ t) st.nNodes = st.edges ++ [(σ t, st.nNodes)] := if_neg hno
  have hxk : σ t ∉ st.x.keys := by rw [h.xk]; exact h.not_meas htw
  have htm : t ∉ ms.map Prod.fst := by rw [h.ms_mem]; exact fun h' => h'.2 ht
  refine ⟨{ st with
      edges := addGraphEdge st.edges (σ t) st.nNodes
      nodes := st.nodes ∪ {σ t, st.nNodes}
      measurements := st.measurements.set (σ t) (.bloch ⟨normalizeAngle (-θ), .XY⟩)
      indices := st.indices.set t (some st.nNodes)
      x := st.x.set (σ t) {st.nNodes}
      nNodes := st.nNodes + 1 },
    by simp only [JczState.step, h.index_ok ht, bind, Except.bind, pure, Except.pure], ?_, ?_, hadd, rfl⟩
  swap
  · exact PyDict.set_append _ _ _ (h.not_meas htw)
  refine ⟨by simp [h.len], h.act_lt, ?_, ?_, h.ms_nodup, h.ms_mem, ?_, ?_, ?_, ?_, ?_, ?_, ?_, ?_, ?_, ?_, ?_, ?_, ?_⟩
  · intro q hq
    simp only
    rw [List.getElem?_set]
    by_cases hqt : t = q
    · subst hqt; simp [h.len, hq, ht]
    · rw [if_neg hqt, h.idx q hq, update_of_ne (Ne.symm hqt)]
  · rw [h.cls]
    apply List.map_congr_left
    intro qa hqa
    rw [update_of_ne]; rintro rfl; exact htm (List.mem_map_of_mem hqa)
  · intro q hq q' hq' he
    by_cases h1 : q = t <;> by_cases h2 : q' = t
    · rw [h1, h2]
    · subst h1; rw [update_self, update_of_ne h2] at he; have := h.lt q' hq'; omega
    · subst h2; rw [update_self, update_of_ne h1] at he; have := h.lt q hq; omega
    · rw [update_of_ne h1, update_of_ne h2] at he; exact h.inj q hq q' hq' he
  · intro q hq
    by_cases h1 : q = t
    · subst h1; simp
    · rw [update_of_ne h1]; have := h.lt q hq; simp only; omega
  · have := h.wle; simp only; omega
  · simp only [h.nodes]
    ext n; simp only [Finset.mem_union, Finset.mem_range, Finset.mem_insert, Finset.mem_singleton]; omega
  · intro n
    simp only
    rw [PyDict.mem_keys_set, h.meas]
    constructor
    · rintro (rfl | ⟨h1, h2⟩)
      · refine ⟨by omega, fun q hq => ?_⟩
        by_cases h1 : q = t
        · subst h1; simp; omega
        · rw [update_of_ne h1]; exact fun h' => h1 (h.inj q hq t htw h')
      · refine ⟨by omega, fun q hq => ?_⟩
        by_cases h1 : q = t
        · subst h1; simp; omega
        · rw [update_of_ne h1]; exact h2 q hq
    · rintro ⟨h1, h2⟩
      by_cases hn : n = σ t
      · exact Or.inl hn
      · right
        have h3 := h2 t htw
        rw [update_self] at h3
        refine ⟨by omega, fun q hq => ?_⟩
        by_cases h4 : q = t
        · subst h4; exact Ne.symm hn
        · have := h2 q hq; rwa [update_of_ne h4] at this
  · exact PyDict.keys_set_nodup h.mknd _ _
  · intro n m hm
    simp only [PyDict.get?_set] at hm
    split at hm
    · cases hm; exact ⟨_, rfl⟩
    · exact h.mxy n m hm
  · simp only [PyDict.keys_set, h.xk]
  · intro u s hs
    simp only [PyDict.get?_set] at hs
    split at hs
    · rename_i he; subst he; cases hs
      exact ⟨_, rfl, h.wle, hlt, by simp, by simp only [hadd, hasEdge_append]; simp⟩
    · obtain ⟨n, h1, h2, h3, h4, h5⟩ := h.xs u s hs
      exact ⟨n, h1, h2, h3, by simp only; omega, by simp only [hadd, hasEdge_append]; exact Or.inl h5⟩
  · intro u u' s hs hs'
    simp only [PyDict.get?_set] at hs hs'
    have key : ∀ {k}, st.x.get? k ≠ some {st.nNodes} := by
      intro k hk
      obtain ⟨n, h1, -, -, h4, -⟩ := h.xs k _ hk
      rw [Finset.singleton_inj] at h1; omega
    split at hs <;> split at hs'
    · rename_i h1 h2; rw [← h1, h2]
    · cases hs; exact absurd hs' key
    · cases hs'; exact absurd hs key
    · exact h.xinj u u' s hs hs'
  · intro e he
    simp only [hadd, List.mem_append, List.mem_singleton] at he
    rcases he with he | rfl
    · have := h.emem e he; simp only; omega
    · simp only; omega
  · simp only [hadd]; exact once_append h.eonce hno
  · intro a b n he hs
    simp only [hadd, hasEdge_append] at he
    simp only [PyDict.get?_set] at hs
    split at hs
    · rename_i h1; subst h1
      have h2 : st.nNodes = n := by simpa using hs
      rcases he with he | ⟨-, rfl⟩ | ⟨h3, -⟩
      · have := (h.edge_lt he).2.1; omega
      · omega
      · omega
    · rename_i h1
      rcases he with he | ⟨h3, -⟩ | ⟨h3, -⟩
      · exact h.etime a b n he hs
      · exact absurd h3.symm h1
      · exfalso
        have : a ∈ st.x.keys := (PyDict.get?_isSome_iff _ _).1 (by rw [hs]; rfl)
        rw [h.xk, h.meas] at this; omega

theorem step_CZ (h : JInv w act σ ms st) {t0 t1 : ℕ} (ht0 : t0 ∈ act) (ht1 : t1 ∈ act) (hne : t0 ≠ t1) :
    ∃ st', st.step (.CZ t0 t1) = .ok st' ∧ JInv w act σ ms st' ∧ st'.measurements = st.measurements ∧
      ((hasEdge st.edges (σ t0) (σ t1) ∧ st'.edges = removeEdge st.edges (σ t0) (σ t1)) ∨ st'.edges = st.edges ++ [(σ t0, σ t1)]) ∧
      st'.nNodes = st.nNodes := by
  have hw0 := h.act_lt t0 ht0
  have hw1 := h.act_lt t1 ht1
  have hx0 : ∀ s, st.x.get? (σ t0) ≠ some s := fun s hs => h.not_meas hw0
    (by rw [← h.xk]; exact (PyDict.get?_isSome_iff _ _).1 (by rw [hs]; rfl))
  have hx1 : ∀ s, st.x.get? (σ t1) ≠ some s := fun s hs => h.not_meas hw1
    (by rw [← h.xk]; exact (PyDict.get?_isSome_iff _ _).1 (by rw [hs]; rfl))
  by_cases he : hasEdge st.edges (σ t0) (σ t1)
  · refine ⟨{ st with edges := removeEdge st.edges (σ t0) (σ t1) },
      by simp only [JczState.step, h.index_ok ht0, h.index_ok ht1, bind, Except.bind, pure, Except.pure, if_pos he], ?_, rfl,
      Or.inl ⟨he, rfl⟩, rfl⟩
    refine { h with xs := ?_, emem := ?_, eonce := ?_, etime := ?_ }
    · intro u s hs
      obtain ⟨n, h1, h2, h3, h4, h5⟩ := h.xs u s hs
      refine ⟨n, h1, h2, h3, h4, hasEdge_remove.2 ⟨h5, ?_, ?_⟩⟩
      · rintro ⟨rfl, -⟩; exact hx0 s hs
      · rintro ⟨rfl, -⟩; exact hx1 s hs
    · intro e he'
      exact h.emem e (List.mem_filter.1 he').1
    · exact h.eonce.filter _
    · intro a b n hab hs
      exact h.etime a b n (hasEdge_remove.1 hab).1 hs
  · have hadd : addGraphEdge st.edges (σ t0) (σ t1) = st.edges ++ [(σ t0, σ t1)] := if_neg he
    refine ⟨{ st with edges := addGraphEdge st.edges (σ t0) (σ t1), nodes := st.nodes ∪ {σ t0, σ t1} },
      by simp only [JczState.step, h.index_ok ht0, h.index_ok ht1, bind, Except.bind, pure, Except.pure, if_neg he], ?_, rfl,
      Or.inr hadd, rfl⟩
    have l0 := h.lt t0 hw0
    have l1 := h.lt t1 hw1
    refine { h with nodes := ?_, xs := ?_, emem := ?_, eonce := ?_, etime := ?_ }
    · simp only [h.nodes]
      ext n; simp only [Finset.mem_union, Finset.mem_range, Finset.mem_insert, Finset.mem_singleton]; omega
    · intro u s hs
      obtain ⟨n, h1, h2, h3, h4, h5⟩ := h.xs u s hs
      exact ⟨n, h1, h2, h3, h4, by simp only [hadd, hasEdge_append]; exact Or.inl h5⟩
    · intro e he'
      simp only [hadd, List.mem_append, List.mem_singleton] at he'
      rcases he' with he' | rfl
      · exact h.emem e he'
      · exact ⟨l0, l1, fun h' => hne (h.inj _ hw0 _ hw1 h')⟩
    · simp only [hadd]; exact once_append h.eonce he
    · intro a b n hab hs
      simp only [hadd, hasEdge_append] at hab
      rcases hab with hab | ⟨rfl, -⟩ | ⟨rfl, -⟩
      · exact h.etime a b n hab hs
      · exact absurd hs (hx0 _)
      · exact absurd hs (hx1 _)

end JInv

/-! ### Semantics -/

theorem OnNodes.op1 {w t : ℕ} {φ : QState} (h : OnNodes (List.range w) φ) (ht : t < w) (U : Mat2) :
    OnNodes (List.range w) (Graphix.op1 U t φ) := by
  intro b b' hb
  unfold Graphix.op1
  rw [hb t (by simpa using ht)]
  have : ∀ x, φ (update b t x) = φ (update b' t x) := fun x => h _ _ fun n hn => by
    by_cases hnt : n = t
    · subst hnt; simp
    · simp [hnt, hb n hn]
  rw [this, this]

theorem OnNodes.cz {w t t' : ℕ} {φ : QState} (h : OnNodes (List.range w) φ) (ht : t < w) (ht' : t' < w) :
    OnNodes (List.range w) (Graphix.cz t t' φ) := by
  intro b b' hb
  unfold Graphix.cz
  rw [hb t (by simpa using ht), hb t' (by simpa using ht'), h b b' hb]

theorem locOps_snoc (F : ℕ → Mat2) {l : List ℕ} {u : ℕ} (hu : u ∉ l) (ψ : QState) :
    locOps F (l ++ [u]) ψ = op1 (F u) u (locOps F l ψ) := by
  rw [locOps_op1 F _ hu]
  clear hu
  induction l with
  | nil => rfl
  | cons a l ih => rw [List.cons_append]; unfold locOps; rw [ih]

theorem locOps_cz (F : ℕ → Mat2) {l : List ℕ} {u v : ℕ} (hu : u ∉ l) (hv : v ∉ l) (ψ : QState) :
    locOps F l (cz u v ψ) = cz u v (locOps F l ψ) := by
  induction l with
  | nil => rfl
  | cons a l ih =>
    simp only [List.mem_cons, not_or] at hu hv
    unfold locOps
    rw [ih hu.2 hv.2]
    funext b
    simp only [op1, cz, update_of_ne hu.1, update_of_ne hv.1]
    ring

theorem czList_append (es es' : List (ℕ × ℕ)) (ψ : QState) : czList (es ++ es') ψ = czList es' (czList es ψ) := by
  simp [czList, List.foldl_append]

theorem xorl_remove {es : List (ℕ × ℕ)} {u v : ℕ} (h : es.Pairwise fun e e' => e ≠ e' ∧ e ≠ (e'.2, e'.1))
    (he : hasEdge es u v) {f : ℕ × ℕ → Bool} (hf : ∀ a b, f (a, b) = f (b, a)) :
    xorl es f = Bool.xor (f (u, v)) (xorl (removeEdge es u v) f) := by
  have keep : ∀ (es : List (ℕ × ℕ)), ¬ hasEdge es u v → removeEdge es u v = es := by
    intro es hn
    unfold removeEdge
    rw [List.filter_eq_self]
    intro e he
    have h1 : e ≠ (u, v) := by rintro rfl; exact hn (Or.inl he)
    have h2 : e ≠ (v, u) := by rintro rfl; exact hn (Or.inr he)
    simp [h1, h2]
  induction es with
  | nil => simp [hasEdge] at he
  | cons e es ih =>
    rw [List.pairwise_cons] at h
    rw [xorl_cons]
    by_cases heq : e = (u, v) ∨ e = (v, u)
    · have hn : ¬ hasEdge es u v := by
        rintro (hm | hm)
        · have := h.1 _ hm; simp only at this; rcases heq with rfl | rfl <;> simp at this
        · have := h.1 _ hm; simp only at this; rcases heq with rfl | rfl <;> simp at this
      have h1 : removeEdge (e :: es) u v = es := by
        have : removeEdge (e :: es) u v = removeEdge es u v := by
          unfold removeEdge; rw [List.filter_cons_of_neg]
          simp only [ne_eq, decide_eq_true_eq, not_and_or, not_not]; exact heq
        rw [this, keep es hn]
      rw [h1]
      rcases heq with rfl | rfl
      · rfl
      · rw [hf]
    · push Not at heq
      have h1 : removeEdge (e :: es) u v = e :: removeEdge es u v := by
        unfold removeEdge; rw [List.filter_cons_of_pos]; simp [heq.1, heq.2]
      have he' : hasEdge es u v := by
        rcases he with he | he
        · rcases List.mem_cons.1 he with h' | h'
          · exact absurd h'.symm heq.1
          · exact Or.inl h'
        · rcases List.mem_cons.1 he with h' | h'
          · exact absurd h'.symm heq.2
          · exact Or.inr h'
      rw [h1, xorl_cons, ih h.2 he']
      rw [← Bool.xor_assoc, ← Bool.xor_assoc, Bool.xor_comm (f e)]

/-- Removing an edge is entangling once more. -/
theorem czList_remove {es : List (ℕ × ℕ)} {u v : ℕ} (h : es.Pairwise fun e e' => e ≠ e' ∧ e ≠ (e'.2, e'.1))
    (he : hasEdge es u v) (ψ : QState) : czList (removeEdge es u v) ψ = cz u v (czList es ψ) := by
  funext b
  rw [czList_apply]
  unfold cz
  rw [czList_apply, xorl_remove h he (f := fun e => b e.1 && b e.2) fun a b => Bool.and_comm _ _]
  simp only [sgn_xor]
  cases b u <;> cases b v <;> simp

/-- The vector of the measurement of a J gate. -/
theorem bra_J (θ : ℝ) (i j : Bool) :
    bra (measVec (.bloch ⟨normalizeAngle (-θ), .XY⟩) false) i j = if j then Complex.exp (Complex.I * (θ * Real.pi : ℝ)) / Real.sqrt 2 else 1 / Real.sqrt 2 := by
  unfold bra measVec planarState normalizeAngle
  cases j
  · simp [Measurement.toBloch]
  · simp only [Measurement.toBloch, Bool.false_eq_true, if_false, add_zero, if_true]
    rw [star_div₀, Complex.star_def, ← Complex.exp_conj, Complex.conj_ofReal]
    congr 1
    rw [Complex.exp_eq_exp_iff_exists_int]
    refine ⟨⌊-θ / 2⌋, ?_⟩
    rw [map_mul, Complex.conj_I, Complex.conj_ofReal]
    push_cast
    ring

theorem jGate_apply (θ : ℝ) (i j : Bool) :
    jGate θ i j = (if i && j then -1 else 1) * (if j then Complex.exp (Complex.I * (θ * Real.pi : ℝ)) / Real.sqrt 2 else 1 / Real.sqrt 2) := by
  unfold jGate
  rw [mul2_apply]
  cases i <;> cases j <;> simp [Ops.H] <;> ring

/-- One J gate: entangle the node of the qubit with a new node and measure it. -/
theorem J_step {w t u n : ℕ} {σ : ℕ → ℕ} {φ : QState} (hφ : OnNodes (List.range w) φ) (ht : t < w)
    (inj : ∀ q < w, ∀ q' < w, σ q = σ q' → q = q') (hu : σ t = u) (hn : ∀ q < w, σ q ≠ n) (θ : ℝ) :
    op1 (bra (measVec (.bloch ⟨normalizeAngle (-θ), .XY⟩) false)) u (cz u n fun b => φ (b ∘ σ)) =
      fun b => op1 (jGate θ) t φ (b ∘ update σ t n) := by
  funext b
  have hun : n ≠ u := by rw [← hu]; exact fun h => hn t ht h.symm
  have key : ∀ x, φ (update b u x ∘ σ) = φ (update (b ∘ update σ t n) t x) := fun x => hφ _ _ fun q hq => by
    have hq : q < w := by simpa using hq
    by_cases hqt : q = t
    · subst hqt; simp [hu]
    · have : σ q ≠ u := by rw [← hu]; exact fun h => hqt (inj q hq t ht h)
      simp [hqt, this]
  unfold op1 cz
  simp only [bra_J, jGate_apply, key, update_self, update_of_ne hun, comp_apply, Bool.true_and, Bool.false_and, Bool.and_true, Bool.and_false]
  cases b n <;> simp

theorem op1_carry {w t : ℕ} {σ : ℕ → ℕ} {φ : QState} (hφ : OnNodes (List.range w) φ) (ht : t < w)
    (inj : ∀ q < w, ∀ q' < w, σ q = σ q' → q = q') (U : Mat2) :
    op1 U (σ t) (fun b => φ (b ∘ σ)) = fun b => op1 U t φ (b ∘ σ) := by
  funext b
  have key : ∀ x, φ (update b (σ t) x ∘ σ) = φ (update (b ∘ σ) t x) := fun x => hφ _ _ fun q hq => by
    have hq : q < w := by simpa using hq
    by_cases hqt : q = t
    · subst hqt; simp
    · have : σ q ≠ σ t := fun h => hqt (inj q hq t ht h)
      simp [hqt, this]
  unfold op1
  simp only [key, comp_apply]

/-- The local operators of the measurements. -/
noncomputable def measBra (d : PyDict ℕ Measurement) (n : ℕ) : Mat2 :=
  bra (measVec ((d.get? n).getD (.pauli ⟨.X, .plus⟩)) false)

theorem get?_append_of_mem {α : Type} {d : PyDict ℕ α} {k k' : ℕ} {v : α} (h : k ∈ d.keys) :
    PyDict.get? (d ++ [(k', v)]) k = d.get? k := by
  induction d with
  | nil => simp [PyDict.keys] at h
  | cons kv d ih =>
    obtain ⟨k1, v1⟩ := kv
    rw [List.cons_append, PyDict.get?_cons, PyDict.get?_cons]
    split
    · rfl
    · rename_i h1
      simp only [PyDict.keys, List.map_cons, List.mem_cons] at h
      exact ih (by rcases h with rfl | h; exact absurd rfl h1; exact h)

theorem get?_append_self {α : Type} {d : PyDict ℕ α} {k : ℕ} {v : α} (h : k ∉ d.keys) :
    PyDict.get? (d ++ [(k, v)]) k = some v := by
  rw [← PyDict.set_append d k v h, PyDict.get?_set_self]

/-- Invariant of the loop: without corrections and in the branch of the outcomes 0, the open graph does what the gates
seen so far do. -/
def JSem (w : ℕ) (σ : ℕ → ℕ) (done : List Instr) (st : JczState) : Prop :=
  ∀ ψ, OnNodes (List.range w) ψ → OnNodes (List.range w) (gates done ψ) ∧
    locOps (measBra st.measurements) st.measurements.keys (czList st.edges ψ) = fun b => gates done ψ (b ∘ σ)

theorem gates_append (l l' : List Instr) (ψ : QState) : gates (l ++ l') ψ = gates l' (gates l ψ) := by
  simp [gates, List.foldl_append]

/-- The measurements of a list of instructions. -/
def msOf (l : List Instr) : List (ℕ × Axis) := l.filterMap fun i => match i with | .M t a => some (t, a) | _ => none

theorem JInv.run {w : ℕ} (l : List Instr) (hl : ∀ i ∈ l, i.IsJcz) : ∀ {act : Finset ℕ} {σ : ℕ → ℕ} {ms : List (ℕ × Axis)}
    {st : JczState} {done : List Instr}, JInv w act σ ms st → JSem w σ done st → Circuit.listOk act l →
    ∃ st' σ', st.run l = .ok st' ∧ JInv w (Circuit.afterList act l) σ' (ms ++ msOf l) st' ∧ JSem w σ' (done ++ l) st' := by
  induction l with
  | nil =>
    intro act σ ms st done h hs _
    exact ⟨st, σ, rfl, by simpa [msOf, Circuit.afterList] using h, by simpa using hs⟩
  | cons i l ih =>
    intro act σ ms st done h hs hok
    obtain ⟨hi, hok⟩ := hok
    have next : ∀ {st' σ' ms'}, st.step i = .ok st' → JInv w (i.after act) σ' ms' st' → JSem w σ' (done ++ [i]) st' →
        ms' ++ msOf l = ms ++ msOf (i :: l) →
        ∃ st'' σ'', st.run (i :: l) = .ok st'' ∧ JInv w (Circuit.afterList act (i :: l)) σ'' (ms ++ msOf (i :: l)) st'' ∧
          JSem w σ'' (done ++ i :: l) st'' := by
      intro st' σ' ms' h1 h2 h3 h4
      obtain ⟨st'', σ'', e1, e2, e3⟩ := ih (fun i hi => hl i (by simp [hi])) h2 h3 hok
      refine ⟨st'', σ'', ?_, by rw [← h4]; exact e2, by simpa using e3⟩
      unfold JczState.run
      simp only [h1, e1, bind, Except.bind]
    have hj := hl i (by simp)
    cases i <;> simp only [Instr.IsJcz] at hj
    case M t a =>
      have ht : t ∈ act := by simpa [Circuit.instrOk] using hi
      obtain ⟨st', h1, h2, h3, h4, h5⟩ := h.step_M ht a
      refine next h1 h2 ?_ (by simp [msOf])
      intro ψ hψ
      rw [h3, h4, gates_append]
      exact hs ψ hψ
    case J t θ =>
      have ht : t ∈ act := by simpa [Circuit.instrOk] using hi
      have htw := h.act_lt t ht
      obtain ⟨st', h1, h2, h3, h4, h5⟩ := h.step_J ht θ
      refine next h1 h2 ?_ (by simp [msOf])
      intro ψ hψ
      obtain ⟨i1, i2⟩ := hs ψ hψ
      rw [gates_append]
      refine ⟨i1.op1 htw _, ?_⟩
      have hnm := h.not_meas htw
      have hnn : st.nNodes ∉ st.measurements.keys := fun hk => absurd ((h.meas _).1 hk).1 (lt_irrefl _)
      have hk : PyDict.keys st'.measurements = st.measurements.keys ++ [σ t] := by rw [h3]; simp [PyDict.keys]
      have hF : ∀ n ∈ st.measurements.keys, measBra st'.measurements n = measBra st.measurements n := by
        intro n hn
        unfold measBra; rw [h3, get?_append_of_mem hn]
      have hFu : measBra st'.measurements (σ t) = bra (measVec (.bloch ⟨normalizeAngle (-θ), .XY⟩) false) := by
        unfold measBra; rw [h3, get?_append_self hnm]; rfl
      rw [hk, locOps_snoc _ hnm, locOps_congr hF, hFu, h4, czList_append]
      change op1 _ _ (locOps _ _ (cz (σ t) st.nNodes (czList st.edges ψ))) = _
      rw [locOps_cz _ hnm hnn, i2]
      exact J_step i1 htw h.inj rfl (fun q hq => (h.lt q hq).ne) θ
    case CZ t0 t1 =>
      simp only [Circuit.instrOk, decide_eq_true_eq] at hi
      obtain ⟨ht0, ht1, hne⟩ := hi
      have hw0 := h.act_lt t0 ht0
      have hw1 := h.act_lt t1 ht1
      obtain ⟨st', h1, h2, h3, h4, h5⟩ := h.step_CZ ht0 ht1 hne
      refine next h1 h2 ?_ (by simp [msOf])
      intro ψ hψ
      obtain ⟨i1, i2⟩ := hs ψ hψ
      rw [gates_append]
      refine ⟨i1.cz hw0 hw1, ?_⟩
      have hcz : czList st'.edges ψ = cz (σ t0) (σ t1) (czList st.edges ψ) := by
        rcases h4 with ⟨he, h4⟩ | h4
        · rw [h4, czList_remove h.eonce he]
        · rw [h4, czList_append]; rfl
      rw [hcz, h3, locOps_cz _ (h.not_meas hw0) (h.not_meas hw1), i2]
      rfl


theorem msOf_append (l l' : List Instr) : msOf (l ++ l') = msOf l ++ msOf l' := List.filterMap_append

theorem jcz_combine {i : Instr} {D l : List Instr} {act : Finset ℕ} (hok : Circuit.listOk act l) (hp : ∀ i ∈ l, i.Proper ∧ ¬ i.isId)
    (ha : i.after act = act) (hm : msOf (i :: l) = msOf l)
    (hD : Circuit.listOk act D ∧ Circuit.afterList act D = act ∧ msOf D = [] ∧ ∀ i ∈ D, i.Proper ∧ ¬ i.isId)
    (ih2 : ∀ act, (∀ i ∈ D, i.Proper ∧ ¬ i.isId) → Circuit.listOk act D →
      Circuit.listOk act (instructionsToJcz D) ∧ Circuit.afterList act (instructionsToJcz D) = Circuit.afterList act D ∧
      msOf (instructionsToJcz D) = msOf D)
    (ih : ∀ act, (∀ i ∈ l, i.Proper ∧ ¬ i.isId) → Circuit.listOk act l →
      Circuit.listOk act (instructionsToJcz l) ∧ Circuit.afterList act (instructionsToJcz l) = Circuit.afterList act l ∧
      msOf (instructionsToJcz l) = msOf l) :
    Circuit.listOk act (instructionsToJcz D ++ instructionsToJcz l) ∧
      Circuit.afterList act (instructionsToJcz D ++ instructionsToJcz l) = Circuit.afterList act (i :: l) ∧
      msOf (instructionsToJcz D ++ instructionsToJcz l) = msOf (i :: l) := by
  obtain ⟨d1, d2, d3, d4⟩ := hD
  obtain ⟨g1, g2, g3⟩ := ih2 act d4 d1
  obtain ⟨h1, h2, h3⟩ := ih act hp hok
  rw [Circuit.listOk_append, Circuit.afterList_append, g2, d2, msOf_append, g3, d3, h3, hm, h2]
  refine ⟨⟨g1, h1⟩, ?_, rfl⟩
  unfold Circuit.afterList
  rw [ha]
  cases l <;> rfl

theorem jcz_listOk (l : List Instr) : ∀ act, (∀ i ∈ l, i.Proper ∧ ¬ i.isId) → Circuit.listOk act l →
    Circuit.listOk act (instructionsToJcz l) ∧ Circuit.afterList act (instructionsToJcz l) = Circuit.afterList act l ∧
      msOf (instructionsToJcz l) = msOf l := by
  fun_induction instructionsToJcz l <;> intro act hp hok
  case case1 => simp [Circuit.listOk, msOf]
  case case5 => exact absurd trivial (hp (.I _) List.mem_cons_self).2
  all_goals
    obtain ⟨hi, hok⟩ := hok
    have hP := (hp _ List.mem_cons_self).1
    have hp' := fun i hi => hp i (List.mem_cons_of_mem _ hi)
    clear hp
  case case9 ih2 ih =>
    refine jcz_combine hok hp' rfl rfl ?_ ih2 ih
    clear ih ih2 hp' hok
    simp_all [decomposeY, Circuit.listOk, Circuit.afterList, Instr.after, Circuit.instrOk, Instr.Proper, Instr.isId, msOf]
  case case14 ih2 ih =>
    refine jcz_combine hok hp' rfl rfl ?_ ih2 ih
    clear ih ih2 hp' hok
    simp_all [decomposeCcx, Circuit.listOk, Circuit.afterList, Instr.after, Circuit.instrOk, Instr.Proper, Instr.isId, msOf]
  case case15 ih2 ih =>
    refine jcz_combine hok hp' rfl rfl ?_ ih2 ih
    clear ih ih2 hp' hok
    simp_all [decomposeRzz, Circuit.listOk, Circuit.afterList, Instr.after, Circuit.instrOk, Instr.Proper, Instr.isId, msOf]
  case case16 ih2 ih =>
    refine jcz_combine hok hp' rfl rfl ?_ ih2 ih
    clear ih ih2 hp' hok
    simp_all [decomposeCnot, Circuit.listOk, Circuit.afterList, Instr.after, Circuit.instrOk, Instr.Proper, Instr.isId, msOf]
  case case17 ih2 ih =>
    refine jcz_combine hok hp' rfl rfl ?_ ih2 ih
    clear ih ih2 hp' hok
    simp_all [decomposeSwap, Circuit.listOk, Circuit.afterList, Instr.after, Circuit.instrOk, Instr.Proper, Instr.isId, msOf, Ne.symm]
  all_goals
    rename_i ih
    obtain ⟨h1, h2, h3⟩ := ih _ hp' hok
    clear ih hp' hok
    simp_all [Circuit.listOk, Circuit.afterList, Instr.after, Circuit.instrOk, decomposeRx, decomposeRy, decomposeRz, msOf]


/-! ### The measurements of the circuit -/

/-- Project the qubits of the measurements, numbered from `k`. -/
noncomputable def projMs (o : ℕ → Bool) : ℕ → List (ℕ × Axis) → QState → QState
  | _, [], φ => φ
  | k, (t, a) :: ms, φ => projMs o (k + 1) ms (projOut t (measVec (.pauli ⟨a, .plus⟩) (o k)) φ)

theorem gates_op1 (U : Mat2) {t : ℕ} (l : List Instr) (hl : ∀ i ∈ l, i.IsJcz) : ∀ {act : Finset ℕ}, t ∉ act →
    Circuit.listOk act l → ∀ ψ, gates l (op1 U t ψ) = op1 U t (gates l ψ) := by
  induction l with
  | nil => intro act _ _ ψ; rfl
  | cons i l ih =>
    intro act ht hok ψ
    obtain ⟨hi, hok⟩ := hok
    change gates l (i.gate (op1 U t ψ)) = op1 U t (gates l (i.gate ψ))
    have hj := hl i (by simp)
    have next := @ih (fun i hi => hl i (by simp [hi])) (i.after act)
    cases i <;> simp only [Instr.IsJcz] at hj
    case M t' a => exact next (fun h => ht (Finset.mem_of_mem_erase h)) hok ψ
    case J t' θ =>
      have hne : t ≠ t' := by rintro rfl; exact ht (by simpa [Circuit.instrOk] using hi)
      rw [← next ht hok]
      simp only [Instr.gate]
      rw [op1_comm _ _ hne]
    case CZ t0 t1 =>
      simp only [Circuit.instrOk, decide_eq_true_eq] at hi
      have h0 : t0 ≠ t := by rintro rfl; exact ht hi.1
      have h1 : t1 ≠ t := by rintro rfl; exact ht hi.2.1
      rw [← next ht hok]
      congr 1
      funext b
      simp only [Instr.gate, op1, cz, update_of_ne h0, update_of_ne h1]
      ring

theorem semInstrs_jcz (o : ℕ → Bool) (l : List Instr) (hl : ∀ i ∈ l, i.IsJcz) : ∀ {act : Finset ℕ} (k : ℕ),
    Circuit.listOk act l → ∀ ψ, semInstrs o k l ψ = projMs o k (msOf l) (gates l ψ) := by
  induction l with
  | nil => intro act k _ ψ; rfl
  | cons i l ih =>
    intro act k hok ψ
    obtain ⟨hi, hok⟩ := hok
    have hj := hl i (by simp)
    have hl' := fun i hi => hl i (List.mem_cons_of_mem _ hi)
    cases i <;> simp only [Instr.IsJcz] at hj
    case M t a =>
      unfold semInstrs
      rw [ih hl' _ hok, projOut_eq_op1, gates_op1 _ l hl' (Finset.notMem_erase t act) hok]
      rfl
    case J t θ => unfold semInstrs; rw [ih hl' _ hok]; rfl
    case CZ t0 t1 => unfold semInstrs; rw [ih hl' _ hok]; rfl

theorem semCmds_classical {w : ℕ} {σ : ℕ → ℕ} (inj : ∀ q < w, ∀ q' < w, σ q = σ q' → q = q') (r : ℕ → Bool) (o : ℕ → Bool)
    (ms : List (ℕ × Axis)) : ∀ (k : ℕ) (φ : QState), OnNodes (List.range w) φ → (∀ qa ∈ ms, qa.1 < w) →
      (∀ i qa, ms[i]? = some qa → o (k + i) = r (σ qa.1)) →
      semCmds r (ms.map fun qa => Command.M (σ qa.1) (.pauli ⟨qa.2, .plus⟩) ∅ ∅) (fun b => φ (b ∘ σ)) =
        fun b => projMs o k ms φ (b ∘ σ) := by
  induction ms with
  | nil => intro k φ _ _ _; rfl
  | cons qa ms ih =>
    obtain ⟨q, a⟩ := qa
    intro k φ hφ hlt ho
    rw [List.map_cons, semCmds_cons]
    have hq : q < w := hlt (q, a) (by simp)
    have h0 : o k = r (σ q) := ho 0 (q, a) rfl
    have h1 : (Command.M (σ q) (.pauli ⟨a, .plus⟩) ∅ ∅).sem r (fun b => φ (b ∘ σ)) =
        fun b => op1 (bra (measVec (.pauli ⟨a, .plus⟩) (o k))) q φ (b ∘ σ) := by
      simp only [Command.sem, projOut_eq_op1, parity_empty, powB, Bool.false_eq_true, if_false, op1_one, h0]
      exact op1_carry hφ hq inj _
    rw [h1, ih (k + 1) _ (hφ.op1 hq _) (fun qa h => hlt qa (by simp [h])) (fun i qa h => ?_)]
    · rfl
    · rw [← ho (i + 1) qa (by simpa using h)]; congr 1; omega

/-! ### The open graph -/

/-- networkx lists each edge of the graph once, in some order and orientation. -/
def EdgeOrd.Valid (eord : List (ℕ × ℕ) → List (ℕ × ℕ)) : Prop :=
  ∀ es : List (ℕ × ℕ), (∀ u v, hasEdge (eord es) u v ↔ hasEdge es u v) ∧
    ((es.Pairwise fun e e' => e ≠ e' ∧ e ≠ (e'.2, e'.1)) → (eord es).Pairwise fun e e' => e ≠ e' ∧ e ≠ (e'.2, e'.1))

theorem xorl_same_edges {es : List (ℕ × ℕ)} {f : ℕ × ℕ → Bool} (hf : ∀ a b, f (a, b) = f (b, a)) :
    ∀ {es' : List (ℕ × ℕ)}, (es.Pairwise fun e e' => e ≠ e' ∧ e ≠ (e'.2, e'.1)) →
    (es'.Pairwise fun e e' => e ≠ e' ∧ e ≠ (e'.2, e'.1)) → (∀ u v, hasEdge es' u v ↔ hasEdge es u v) → xorl es' f = xorl es f := by
  induction es with
  | nil =>
    intro es' _ _ h
    cases es' with
    | nil => rfl
    | cons e es' =>
      have := (h e.1 e.2).1 (Or.inl (by simp))
      simp [hasEdge] at this
  | cons e es ih =>
    intro es' h1 h2 h
    rw [List.pairwise_cons] at h1
    have he : hasEdge es' e.1 e.2 := (h _ _).2 (Or.inl (by simp))
    rw [xorl_remove h2 he hf, xorl_cons]
    congr 1
    refine ih h1.2 (h2.filter _) fun u v => ?_
    rw [JInv.hasEdge_remove, h]
    constructor
    · rintro ⟨h3, h4, h5⟩
      rcases h3 with h3 | h3
      · rcases List.mem_cons.1 h3 with h6 | h6
        · exact absurd ⟨by rw [← h6], by rw [← h6]⟩ h4
        · exact Or.inl h6
      · rcases List.mem_cons.1 h3 with h6 | h6
        · exact absurd ⟨by rw [← h6], by rw [← h6]⟩ h5
        · exact Or.inr h6
    · intro h3
      refine ⟨?_, ?_, ?_⟩
      · exact h3.imp (List.mem_cons_of_mem _) (List.mem_cons_of_mem _)
      · rintro ⟨rfl, rfl⟩
        rcases h3 with h3 | h3
        · exact (h1.1 _ h3).1 rfl
        · exact (h1.1 _ h3).2 rfl
      · rintro ⟨rfl, rfl⟩
        rcases h3 with h3 | h3
        · exact (h1.1 _ h3).2 rfl
        · exact (h1.1 _ h3).1 rfl

theorem czList_same_edges {es es' : List (ℕ × ℕ)} (h1 : es.Pairwise fun e e' => e ≠ e' ∧ e ≠ (e'.2, e'.1))
    (h2 : es'.Pairwise fun e e' => e ≠ e' ∧ e ≠ (e'.2, e'.1)) (h : ∀ u v, hasEdge es' u v ↔ hasEdge es u v) (ψ : QState) :
    czList es' ψ = czList es ψ := by
  funext b
  rw [czList_apply, czList_apply, xorl_same_edges (fun a b => Bool.and_comm _ _) h1 h2 h]

/-- Local operators on the nodes of two lists, trivial outside both. -/
theorem locOps_eq_of {F G : ℕ → Mat2} : ∀ {l l' : List ℕ}, l.Nodup → l'.Nodup → (∀ n ∈ l, n ∈ l') → (∀ n ∈ l, F n = G n) →
    (∀ n ∈ l', n ∉ l → G n = 1) → ∀ ψ, locOps G l' ψ = locOps F l ψ := by
  intro l l' hl hl' hsub hFG hone ψ
  have h1 : locOps F l ψ = locOps G l ψ := locOps_congr hFG ψ
  rw [h1]
  clear h1 hFG
  have perm : ∀ {a b : List ℕ}, a.Perm b → a.Nodup → ∀ ψ, locOps G a ψ = locOps G b ψ := by
    intro a b hp
    induction hp with
    | nil => intro _ ψ; rfl
    | cons x _ ih => intro hn ψ; unfold locOps; rw [ih (List.nodup_cons.1 hn).2]
    | swap x y l =>
      intro hn ψ
      unfold locOps
      unfold locOps
      rw [op1_comm]
      simp only [List.nodup_cons, List.mem_cons, not_or] at hn
      exact hn.1.1
    | trans h1 _ ih1 ih2 => intro hn ψ; rw [ih1 hn, ih2 (h1.nodup_iff.1 hn)]
  have drop : ∀ a : List ℕ, (∀ n ∈ a, n ∉ l → G n = 1) → ∀ ψ, locOps G a ψ = locOps G (a.filter (· ∈ l)) ψ := by
    intro a
    induction a with
    | nil => intro _ ψ; rfl
    | cons x a ih =>
      intro h ψ
      by_cases hx : x ∈ l
      · rw [List.filter_cons_of_pos (by simpa using hx)]
        unfold locOps
        rw [ih fun n hn => h n (by simp [hn])]
      · rw [List.filter_cons_of_neg (by simpa using hx)]
        change op1 (G x) x (locOps G a ψ) = _
        rw [h x (by simp) hx, op1_one, ih fun n hn => h n (by simp [hn])]
  rw [drop l' hone]
  refine perm ?_ (hl'.filter _) ψ
  rw [List.perm_ext_iff_of_nodup (hl'.filter _) hl]
  intro n
  simp only [List.mem_filter, decide_eq_true_eq]
  exact ⟨fun h => h.2, fun h => ⟨hsub n h, h⟩⟩

end Graphix
