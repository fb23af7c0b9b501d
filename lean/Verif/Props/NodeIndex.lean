import Verif.Model.Simulator

/-!
# Property C40: the node index is a bijection
-/

namespace Graphix

namespace NodeIndex

/-- The list has no duplicate, and the dictionary is its inverse. -/
structure Inv (idx : NodeIndex) : Prop where
  nodup : idx.list.Nodup
  dict : ∀ n i, idx.dict.get? n = some i ↔ idx.list[i]? = some n
  keys : idx.dict.keys.Nodup

theorem enumerateSet_keys_nodup (nodes : List ℕ) : ∀ (d : PyDict ℕ ℕ) (start : ℕ), d.keys.Nodup →
    (enumerateSet d nodes start).keys.Nodup := by
  induction nodes with
  | nil => intro d _ h; exact h
  | cons n nodes ih => intro d s h; exact ih _ _ (PyDict.keys_set_nodup h _ _)

theorem enumerateSet_get? (nodes : List ℕ) : ∀ (d : PyDict ℕ ℕ) (start : ℕ), nodes.Nodup → ∀ n,
    (enumerateSet d nodes start).get? n =
      if n ∈ nodes then some (start + nodes.idxOf n) else d.get? n := by
  induction nodes with
  | nil => intro d s _ n; simp [enumerateSet]
  | cons m nodes ih =>
    intro d s hnd n
    rw [List.nodup_cons] at hnd
    rw [enumerateSet, ih _ _ hnd.2]
    by_cases h : n ∈ nodes
    · have hne : m ≠ n := by rintro rfl; exact hnd.1 h
      rw [if_pos h, if_pos (by simp [h]), List.idxOf_cons_ne _ hne]
      congr 1; omega
    · rw [if_neg h, PyDict.get?_set]
      by_cases h2 : m = n
      · subst h2; simp
      · rw [if_neg h2, if_neg (by simp [h, Ne.symm h2])]

theorem Inv.clear : Inv clear :=
  ⟨List.nodup_nil, by simp [NodeIndex.clear], List.nodup_nil⟩

theorem Inv.get?_eq {idx : NodeIndex} (h : Inv idx) (n : ℕ) :
    idx.dict.get? n = if n ∈ idx.list then some (idx.list.idxOf n) else none := by
  by_cases hn : n ∈ idx.list
  · rw [if_pos hn]; exact (h.dict n _).2 (List.getElem?_idxOf hn)
  · rw [if_neg hn]
    cases hg : idx.dict.get? n with
    | none => rfl
    | some i => exact absurd (List.mem_of_getElem? ((h.dict n i).1 hg)) hn

theorem Inv.of_get? {idx : NodeIndex} (hn : idx.list.Nodup) (hk : idx.dict.keys.Nodup)
    (h : ∀ n, idx.dict.get? n = if n ∈ idx.list then some (idx.list.idxOf n) else none) : Inv idx := by
  refine ⟨hn, fun n i => ?_, hk⟩
  rw [h]
  constructor
  · intro hi
    by_cases hm : n ∈ idx.list
    · rw [if_pos hm] at hi
      obtain rfl := Option.some.inj hi
      exact List.getElem?_idxOf hm
    · rw [if_neg hm] at hi; simp at hi
  · intro hi
    obtain ⟨hlt, rfl⟩ := List.getElem?_eq_some_iff.1 hi
    rw [if_pos (List.getElem_mem hlt), hn.idxOf_getElem]

theorem Inv.extend {idx : NodeIndex} (h : Inv idx) {nodes : List ℕ} (hnd : (idx.list ++ nodes).Nodup) :
    Inv (idx.extend nodes) := by
  have hdrop : (idx.list ++ nodes).drop idx.list.length = nodes := List.drop_left
  refine Inv.of_get? hnd ?_ (fun n => ?_)
  · unfold NodeIndex.extend; simp only []; exact enumerateSet_keys_nodup _ _ _ h.keys
  · unfold NodeIndex.extend
    simp only [hdrop]
    rw [enumerateSet_get? _ _ _ (List.nodup_append.1 hnd).2.1, h.get?_eq]
    by_cases hn : n ∈ nodes
    · have hnl : n ∉ idx.list := fun hc => (List.nodup_append.1 hnd).2.2 n hc n hn rfl
      rw [if_pos hn, if_pos (by simp [hn]), List.idxOf_append_of_notMem hnl]
    · rw [if_neg hn]
      by_cases hl : n ∈ idx.list
      · rw [if_pos hl, if_pos (by simp [hl]), List.idxOf_append_of_mem hl]
      · rw [if_neg hl, if_neg (by simp [hl, hn])]

theorem Inv.index_ok {idx : NodeIndex} (h : Inv idx) {n : ℕ} (hn : n ∈ idx.list) :
    idx.index n = .ok (idx.list.idxOf n) := by
  unfold NodeIndex.index; rw [h.get?_eq, if_pos hn]

theorem Inv.index_err {idx : NodeIndex} (h : Inv idx) {n : ℕ} (hn : n ∉ idx.list) :
    idx.index n = .error .keyError := by
  unfold NodeIndex.index; rw [h.get?_eq, if_neg hn]

theorem Inv.remove {idx : NodeIndex} (h : Inv idx) {n : ℕ} (hn : n ∈ idx.list) :
    ∃ idx', idx.remove n = .ok idx' ∧ Inv idx' ∧ idx'.list = idx.list.erase n := by
  have hlist : idx.list.eraseIdx (idx.list.idxOf n) = idx.list.erase n :=
    List.eraseIdx_idxOf_eq_erase n idx.list
  refine ⟨⟨enumerateSet (idx.dict.erase n) ((idx.list.erase n).drop (idx.list.idxOf n)) (idx.list.idxOf n),
    idx.list.erase n⟩, ?_, ?_, rfl⟩
  · unfold NodeIndex.remove
    rw [h.index_ok hn]
    simp only [bind, Except.bind, pure, Except.pure, hlist]
  · have hnd : (idx.list.erase n).Nodup := h.nodup.erase n
    obtain ⟨l1, l2, hl, hlen⟩ : ∃ l1 l2, idx.list = l1 ++ n :: l2 ∧ l1.length = idx.list.idxOf n := by
      have hlt := List.idxOf_lt_length_iff.2 hn
      refine ⟨idx.list.take (idx.list.idxOf n), idx.list.drop (idx.list.idxOf n + 1), ?_, by simp; omega⟩
      have := List.getElem_idxOf hlt
      conv_lhs => rw [← List.take_append_drop (idx.list.idxOf n) idx.list]
      rw [List.drop_eq_getElem_cons hlt, this]
    have hnl : (l1 ++ n :: l2).Nodup := hl ▸ h.nodup
    have hn1 : n ∉ l1 := fun hc => (List.nodup_append.1 hnl).2.2 n hc n (by simp) rfl
    have hn2 : n ∉ l2 := (List.nodup_cons.1 (List.nodup_append.1 hnl).2.1).1
    have he : idx.list.erase n = l1 ++ l2 := by
      rw [hl, List.erase_append_right _ hn1]; simp
    have hdrop : (l1 ++ l2).drop (idx.list.idxOf n) = l2 := by rw [← hlen]; exact List.drop_left
    refine Inv.of_get? hnd ?_ (fun m => ?_)
    · exact enumerateSet_keys_nodup _ _ _ (by rw [PyDict.keys_erase]; exact h.keys.erase n)
    · simp only [he, hdrop]
      rw [he] at hnd
      rw [enumerateSet_get? _ _ _ (List.nodup_append.1 hnd).2.1, PyDict.get?_erase h.keys, h.get?_eq, ← hlen]
      by_cases h2 : m ∈ l2
      · have h1 : m ∉ l1 := fun hc => (List.nodup_append.1 hnd).2.2 m hc m h2 rfl
        rw [if_pos h2, if_pos (by simp [h2]), List.idxOf_append_of_notMem h1]
      · rw [if_neg h2]
        by_cases hmn : n = m
        · subst hmn; rw [if_pos rfl, if_neg (by simp [hn1, hn2])]
        · rw [if_neg hmn]
          by_cases h1 : m ∈ l1
          · rw [if_pos (by rw [hl]; simp [h1]), if_pos (by simp [h1]), hl, List.idxOf_append_of_mem h1,
              List.idxOf_append_of_mem h1]
          · rw [if_neg (by rw [hl]; simp [h1, h2, Ne.symm hmn]), if_neg (by simp [h1, h2])]

/-- The list with positions `i` and `j` exchanged. -/
def swapped (l : List ℕ) (i j : ℕ) : List ℕ :=
  (List.range l.length).map (fun k => l.getD (if k = i then j else if k = j then i else k) 0)

theorem set_set_eq_swapped {l : List ℕ} {i j : ℕ} (hi : i < l.length) (hj : j < l.length) :
    (l.set i l[j]).set j l[i] = swapped l i j := by
  apply List.ext_getElem
  · simp [swapped]
  · intro k h1 h2
    have hk : k < l.length := by simpa using h1
    simp only [swapped, List.getElem_map, List.getElem_range, List.getElem_set]
    by_cases hkj : j = k
    · subst hkj
      by_cases hji : j = i
      · subst hji; simp [hi]
      · simp [hji, hi]
    · rw [if_neg hkj]
      by_cases hki : i = k
      · subst hki; simp [hj]
      · rw [if_neg hki, if_neg (Ne.symm hki), if_neg (Ne.symm hkj)]; simp [hk]

theorem swapped_getElem? {l : List ℕ} {i j : ℕ} (hi : i < l.length) (hj : j < l.length) (k : ℕ) :
    (swapped l i j)[k]? = l[if k = i then j else if k = j then i else k]? := by
  unfold swapped
  by_cases hk : k < l.length
  · have hlt : (if k = i then j else if k = j then i else k) < l.length := by split_ifs <;> assumption
    rw [List.getElem?_map, List.getElem?_range hk]
    simp only [Option.map_some, List.getD_eq_getElem?_getD]
    rw [List.getElem?_eq_getElem hlt]; rfl
  · have h1 : k ≠ i := by omega
    have h2 : k ≠ j := by omega
    rw [if_neg h1, if_neg h2, List.getElem?_eq_none (by simp; omega), List.getElem?_eq_none (by omega)]

theorem Inv.swap {idx : NodeIndex} (h : Inv idx) {i j : ℕ} (hi : i < idx.list.length)
    (hj : j < idx.list.length) :
    ∃ idx', idx.swap i j = .ok idx' ∧ Inv idx' ∧ idx'.list = swapped idx.list i j := by
  have e1 : idx.getItem i = .ok idx.list[i] := by
    unfold NodeIndex.getItem; rw [List.getElem?_eq_getElem hi]
  have e2 : idx.getItem j = .ok idx.list[j] := by
    unfold NodeIndex.getItem; rw [List.getElem?_eq_getElem hj]
  refine ⟨_, by unfold NodeIndex.swap; rw [e1, e2]; rfl, ?_, set_set_eq_swapped hi hj⟩
  have hnd : ((idx.list.set i idx.list[j]).set j idx.list[i]).Nodup := by
    rw [set_set_eq_swapped hi hj]
    rw [List.nodup_iff_injective_getElem]
    intro a b hab
    have ha : (a : ℕ) < idx.list.length := by have := a.2; simpa [swapped] using this
    have hb : (b : ℕ) < idx.list.length := by have := b.2; simpa [swapped] using this
    have h1 := swapped_getElem? hi hj a
    have h2 := swapped_getElem? hi hj b
    rw [List.getElem?_eq_getElem a.2] at h1
    rw [List.getElem?_eq_getElem b.2] at h2
    have h3 := h1.symm.trans ((congrArg some hab).trans h2)
    have hlt : (if (a : ℕ) = i then j else if (a : ℕ) = j then i else a) < idx.list.length := by
      split_ifs <;> assumption
    have := (List.getElem?_inj hlt h.nodup).1 h3
    apply Fin.ext
    split_ifs at this <;> omega
  refine ⟨hnd, fun n k => ?_, ?_⟩
  · simp only []
    rw [set_set_eq_swapped hi hj, swapped_getElem? hi hj]
    rw [PyDict.get?_set, PyDict.get?_set]
    have inj : ∀ {x y : ℕ}, idx.list[x]? = some n → idx.list[y]? = some n → x = y := by
      intro x y hx hy
      obtain ⟨hlt, _⟩ := List.getElem?_eq_some_iff.1 hx
      exact (List.getElem?_inj hlt h.nodup).1 (hx.trans hy.symm)
    by_cases hnj : idx.list[j] = n
    · have hjn : idx.list[j]? = some n := by rw [List.getElem?_eq_getElem hj, hnj]
      rw [if_pos hnj]
      constructor
      · intro hk; obtain rfl := Option.some.inj hk; rw [if_pos rfl]; exact hjn
      · intro hk
        have := inj hk hjn
        congr 1
        split_ifs at this <;> omega
    · rw [if_neg hnj]
      by_cases hni : idx.list[i] = n
      · have hin : idx.list[i]? = some n := by rw [List.getElem?_eq_getElem hi, hni]
        rw [if_pos hni]
        constructor
        · intro hk
          obtain rfl := Option.some.inj hk
          by_cases hji : j = i
          · subst hji; rw [if_pos rfl]; exact hin
          · rw [if_neg hji, if_pos rfl]; exact hin
        · intro hk
          have := inj hk hin
          congr 1
          split_ifs at this <;> omega
      · rw [if_neg hni, h.dict]
        by_cases hki : k = i
        · subst hki
          rw [if_pos rfl, List.getElem?_eq_getElem hi, List.getElem?_eq_getElem hj]
          simp [hni, hnj]
        · rw [if_neg hki]
          by_cases hkj : k = j
          · subst hkj
            rw [if_pos rfl, List.getElem?_eq_getElem hi, List.getElem?_eq_getElem hj]
            simp [hni, hnj]
          · rw [if_neg hkj]
  · exact PyDict.keys_set_nodup (PyDict.keys_set_nodup h.keys _ _) _ _

end NodeIndex

/-- The operations of the API. -/
inductive IndexOp
  | extend (nodes : List ℕ)
  | remove (node : ℕ)
  | swap (i j : ℕ)
  | clear

/-- The code, operation by operation. -/
def IndexOp.run : List IndexOp → NodeIndex → Except PyErr NodeIndex
  | [], idx => .ok idx
  | .extend nodes :: ops, idx => IndexOp.run ops (idx.extend nodes)
  | .remove node :: ops, idx => (idx.remove node).bind (IndexOp.run ops)
  | .swap i j :: ops, idx => (idx.swap i j).bind (IndexOp.run ops)
  | .clear :: ops, _ => IndexOp.run ops NodeIndex.clear

/-- Specification, on the list of live nodes: `none` when the use is not valid (adding a node twice,
removing a node that is not there, swapping positions that do not exist). -/
def IndexOp.spec : List IndexOp → List ℕ → Option (List ℕ)
  | [], l => some l
  | .extend nodes :: ops, l => if (l ++ nodes).Nodup then IndexOp.spec ops (l ++ nodes) else none
  | .remove node :: ops, l => if node ∈ l then IndexOp.spec ops (l.erase node) else none
  | .swap i j :: ops, l =>
    if i < l.length ∧ j < l.length then IndexOp.spec ops (NodeIndex.swapped l i j) else none
  | .clear :: ops, _ => IndexOp.spec ops []

theorem IndexOp.run_spec (ops : List IndexOp) : ∀ (idx : NodeIndex), idx.Inv → ∀ l,
    IndexOp.spec ops idx.list = some l → ∃ idx', IndexOp.run ops idx = .ok idx' ∧ idx'.Inv ∧ idx'.list = l := by
  induction ops with
  | nil => intro idx h l hl; exact ⟨idx, rfl, h, by simpa [IndexOp.spec] using hl⟩
  | cons op ops ih =>
    intro idx h l hl
    cases op with
    | extend nodes =>
      simp only [IndexOp.spec] at hl
      by_cases hn : (idx.list ++ nodes).Nodup
      · rw [if_pos hn] at hl
        exact ih _ (h.extend hn) l hl
      · rw [if_neg hn] at hl; simp at hl
    | remove n =>
      simp only [IndexOp.spec] at hl
      by_cases hn : n ∈ idx.list
      · rw [if_pos hn] at hl
        obtain ⟨idx', h1, h2, h3⟩ := h.remove hn
        simp only [IndexOp.run, h1, Except.bind]
        exact ih _ h2 l (h3 ▸ hl)
      · rw [if_neg hn] at hl; simp at hl
    | swap i j =>
      simp only [IndexOp.spec] at hl
      by_cases hn : i < idx.list.length ∧ j < idx.list.length
      · rw [if_pos hn] at hl
        obtain ⟨idx', h1, h2, h3⟩ := h.swap hn.1 hn.2
        simp only [IndexOp.run, h1, Except.bind]
        exact ih _ h2 l (h3 ▸ hl)
      · rw [if_neg hn] at hl; simp at hl
    | clear => exact ih _ NodeIndex.Inv.clear l hl

/-- **C40** After any sequence of valid operations starting from an empty index, the index lists the
live nodes as expected, `index` and `__getitem__` are mutually inverse, defined exactly on the live
nodes and on `0..n-1`; other lookups raise `KeyError` / `IndexError`. -/
theorem C40_bijection (ops : List IndexOp) (l : List ℕ) (hl : IndexOp.spec ops [] = some l) :
    ∃ idx, IndexOp.run ops NodeIndex.clear = .ok idx ∧ idx.list = l ∧
      (∀ n i, idx.index n = .ok i ↔ idx.getItem i = .ok n) ∧
      (∀ n, (∃ i, idx.index n = .ok i) ↔ n ∈ l) ∧
      (∀ i, (∃ n, idx.getItem i = .ok n) ↔ i < l.length) ∧
      (∀ n, n ∉ l → idx.index n = .error .keyError) ∧
      (∀ i, l.length ≤ i → idx.getItem i = .error .indexError) := by
  obtain ⟨idx, h1, h2, rfl⟩ := IndexOp.run_spec ops _ NodeIndex.Inv.clear l hl
  have gi : ∀ n i, idx.getItem i = .ok n ↔ idx.list[i]? = some n := by
    intro n i
    unfold NodeIndex.getItem
    cases idx.list[i]? <;> simp
  have ii : ∀ n i, idx.index n = .ok i ↔ idx.dict.get? n = some i := by
    intro n i
    unfold NodeIndex.index
    cases idx.dict.get? n <;> simp
  refine ⟨idx, h1, rfl, fun n i => by rw [gi, ii, h2.dict], fun n => ?_, fun i => ?_,
    fun n hn => h2.index_err hn, fun i hi => ?_⟩
  · constructor
    · rintro ⟨i, hi⟩
      by_contra hn
      rw [h2.index_err hn] at hi; simp at hi
    · intro hn; exact ⟨_, h2.index_ok hn⟩
  · constructor
    · rintro ⟨n, hn⟩
      exact (List.getElem?_eq_some_iff.1 ((gi n i).1 hn)).1
    · intro hi; exact ⟨idx.list[i], (gi _ _).2 (List.getElem?_eq_getElem hi)⟩
  · unfold NodeIndex.getItem; rw [List.getElem?_eq_none hi]

example : IndexOp.spec [.extend [4, 7, 2], .remove 4, .swap 0 1, .extend [4]] [] = some [2, 7, 4] := by
  decide

end Graphix
