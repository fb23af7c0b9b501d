import Verif.Props.StdOpenGraph
import Verif.Props.RemovePauli

/-!
# The standard form of the patterns built from corrections

The commands that `XZCorrections.to_pattern` writes, given to the standardization.
-/

namespace Graphix

open scoped symmDiff

namespace StdBody

theorem run_ns (ns : List ℕ) : ∀ b : StdBody, b.run (ns.map (Command.N · PlanarState.plus)) =
    .ok { b with nList := b.nList ++ ns.map fun n => (n, PlanarState.plus) } := by
  induction ns with
  | nil => intro b; simp [run]
  | cons n ns ih =>
    intro b
    simp only [List.map_cons, run, step, bind, Except.bind, ih]
    simp

theorem edgeSide_nil {b : StdBody} (hc : b.cDict = []) (hx : b.xDict = []) (i j : ℕ) : b.edgeSide i j = .ok b := by
  unfold edgeSide
  rw [hc, hx]
  simp only [PyDict.get?_nil, bind, Except.bind, pure, Except.pure]
  cases b
  simp only at hc hx
  subst hc hx
  rfl

theorem symmDiff_none (s : Finset ℕ) : s ∆ ∅ = s := symmDiff_bot s

theorem run_es (es : List (ℕ × ℕ)) : ∀ b : StdBody, b.cDict = [] → b.xDict = [] →
    ∃ s, b.run (es.map fun e => Command.E e.1 e.2) = .ok { b with eSet := s } := by
  induction es with
  | nil => intro b _ _; exact ⟨b.eSet, rfl⟩
  | cons e es ih =>
    intro b hc hx
    obtain ⟨s, hs⟩ := ih { b with eSet := b.eSet ∆ {s(e.1, e.2)} } hc hx
    refine ⟨s, ?_⟩
    simp only [List.map_cons, run, step, edgeSide_nil hc hx, bind, Except.bind, pure, Except.pure, hs]

theorem commuteDomains_I (d : Domains) : Clifford.I.commuteDomains? d = some d := by
  rcases d with ⟨s, t⟩
  rfl

theorem correctionCase_nil {b : StdBody} (hc : b.cDict = []) (n : ℕ) (d : Domains) :
    b.correctionCase n d = .ok { b with zDict := addIf b.zDict n d.t, xDict := addIf b.xDict n d.s } := by
  unfold correctionCase
  rw [hc, PyDict.get?_nil, Option.getD_none, commuteDomains_I]
  rfl

theorem nodup_addIf {d : PyDict ℕ (Finset ℕ)} (hd : (PyDict.keys d).Nodup) (k : ℕ) (D : Finset ℕ) : (PyDict.keys (addIf d k D)).Nodup := by
  unfold addIf
  split
  · exact nodup_add hd k D
  · exact hd

theorem addIf_empty (d : PyDict ℕ (Finset ℕ)) (k : ℕ) : addIf d k ∅ = d := by
  unfold addIf; simp

theorem run_zs (u : ℕ) (l : List ℕ) (hl : l.Nodup) : ∀ b : StdBody, b.cDict = [] → b.zDict.keys.Nodup →
    ∃ z, b.run (l.map fun k => Command.Z k {u}) = .ok { b with zDict := z } ∧ z.keys.Nodup ∧
      ∀ k, domAt z k = domAt b.zDict k ∆ (if k ∈ l then {u} else ∅) := by
  induction l with
  | nil => intro b _ hz; exact ⟨b.zDict, rfl, hz, fun k => by simp [symmDiff_none]⟩
  | cons a l ih =>
    intro b hc hz
    rw [List.nodup_cons] at hl
    obtain ⟨z, h1, h2, h3⟩ := ih hl.2 { b with zDict := addIf b.zDict a {u} } hc (nodup_addIf hz a {u})
    refine ⟨z, ?_, h2, fun k => ?_⟩
    · simp only [List.map_cons, run, step, correctionCase_nil hc, addIf_empty, bind, Except.bind, h1]
    · rw [h3]
      simp only [domAt_addIf]
      by_cases hk : a = k
      · subst hk
        simp [hl.1, symmDiff_none]
      · rw [if_neg hk]
        simp [Ne.symm hk]

theorem run_xs (u : ℕ) (l : List ℕ) (hl : l.Nodup) : ∀ b : StdBody, b.cDict = [] → b.xDict.keys.Nodup →
    ∃ x, b.run (l.map fun k => Command.X k {u}) = .ok { b with xDict := x } ∧ x.keys.Nodup ∧
      ∀ k, domAt x k = domAt b.xDict k ∆ (if k ∈ l then {u} else ∅) := by
  induction l with
  | nil => intro b _ hz; exact ⟨b.xDict, rfl, hz, fun k => by simp [symmDiff_none]⟩
  | cons a l ih =>
    intro b hc hz
    rw [List.nodup_cons] at hl
    obtain ⟨x, h1, h2, h3⟩ := ih hl.2 { b with xDict := addIf b.xDict a {u} } hc (nodup_addIf hz a {u})
    refine ⟨x, ?_, h2, fun k => ?_⟩
    · simp only [List.map_cons, run, step, correctionCase_nil hc, addIf_empty, bind, Except.bind, h1]
    · rw [h3]
      simp only [domAt_addIf]
      by_cases hk : a = k
      · subst hk
        simp [hl.1, symmDiff_none]
      · rw [if_neg hk]
        simp [Ne.symm hk]

/-- The nodes of `done` that correct `k`. -/
def src (xl : ℕ → List ℕ) (done : List ℕ) (k : ℕ) : Finset ℕ := (done.filter fun u => decide (k ∈ xl u)).toFinset

theorem mem_src {xl : ℕ → List ℕ} {done : List ℕ} {k u : ℕ} : u ∈ src xl done k ↔ u ∈ done ∧ k ∈ xl u := by
  simp [src]

theorem src_snoc {xl : ℕ → List ℕ} {done : List ℕ} {a k : ℕ} (ha : a ∉ done) :
    src xl (done ++ [a]) k = src xl done k ∆ (if k ∈ xl a then {a} else ∅) := by
  ext u
  rw [Finset.mem_symmDiff, mem_src, mem_src]
  by_cases h : u = a
  · subst h
    by_cases hk : k ∈ xl u <;> simp [hk, ha]
  · by_cases hk : k ∈ xl a <;> simp [hk, h]

theorem src_snoc_of_not {xl : ℕ → List ℕ} {done : List ℕ} {a k : ℕ} (ha : k ∉ xl a) :
    src xl (done ++ [a]) k = src xl done k := by
  ext u
  rw [mem_src, mem_src]
  constructor
  · rintro ⟨h, h'⟩
    refine ⟨(List.mem_append.1 h).resolve_right fun h2 => ?_, h'⟩
    rw [List.mem_singleton] at h2
    subst h2; exact ha h'
  · exact fun ⟨h, h'⟩ => ⟨List.mem_append_left _ h, h'⟩

/-- The accumulators after the blocks of the nodes `done`. -/
structure BlockInv (meas : ℕ → Measurement) (xl zl : ℕ → List ℕ) (done : List ℕ) (b : StdBody) : Prop where
  c : b.cDict = []
  m : b.mList = done.map fun w => ⟨w, meas w, src xl done w, src zl done w⟩
  nx : b.xDict.keys.Nodup
  nz : b.zDict.keys.Nodup
  x : ∀ k, domAt b.xDict k = if k ∈ done then ∅ else src xl done k
  z : ∀ k, domAt b.zDict k = if k ∈ done then ∅ else src zl done k

theorem keys_erase_nodup {d : PyDict ℕ (Finset ℕ)} (hd : (PyDict.keys d).Nodup) (k : ℕ) : (PyDict.keys (PyDict.erase d k)).Nodup := by
  rw [PyDict.keys_erase]; exact hd.erase k

theorem domAt_erase_self {d : PyDict ℕ (Finset ℕ)} (hd : (PyDict.keys d).Nodup) (k : ℕ) : domAt (PyDict.erase d k) k = ∅ := by
  apply domAt_empty
  rw [PyDict.keys_erase]
  exact fun h => (hd.mem_erase_iff.1 h).1 rfl

theorem measureCase_nil {b : StdBody} (hc : b.cDict = []) (u : ℕ) (m : Measurement) :
    b.measureCase ⟨u, m, ∅, ∅⟩ = .ok { b with
      zDict := PyDict.erase b.zDict u, xDict := PyDict.erase b.xDict u,
      mList := b.mList ++ [⟨u, m, domAt b.xDict u, domAt b.zDict u⟩] } := by
  unfold measureCase
  simp only [hc, PyDict.get?_nil, bind, Except.bind, pure, Except.pure, PyDict.erase]
  simp only [domAt, ← Finset.bot_eq_empty, bot_symmDiff]

theorem BlockInv.block {meas : ℕ → Measurement} {xl zl : ℕ → List ℕ} {done : List ℕ} {b : StdBody} (h : BlockInv meas xl zl done b) {u : ℕ}
    (hu : u ∉ done) (hx : (xl u).Nodup) (hz : (zl u).Nodup) (hl : ∀ w, w ∈ xl u ∨ w ∈ zl u → w ∉ done ∧ w ≠ u) :
    ∃ b', b.run (blockOf meas xl zl u) = .ok b' ∧ BlockInv meas xl zl (done ++ [u]) b' := by
  set b1 : StdBody := { b with
      zDict := PyDict.erase b.zDict u, xDict := PyDict.erase b.xDict u,
      mList := b.mList ++ [⟨u, meas u, domAt b.xDict u, domAt b.zDict u⟩] } with hb1
  obtain ⟨z, z1, z2, z3⟩ := run_zs u (zl u) hz b1 h.c (keys_erase_nodup h.nz u)
  obtain ⟨x, x1, x2, x3⟩ := run_xs u (xl u) hx { b1 with zDict := z } h.c (keys_erase_nodup h.nx u)
  have key : ∀ (l : ℕ → List ℕ) (d : PyDict ℕ (Finset ℕ)), d.keys.Nodup → (∀ k, domAt d k = if k ∈ done then ∅ else src l done k) →
      (∀ w, w ∈ l u → w ∉ done ∧ w ≠ u) →
      (∀ k, domAt (PyDict.erase d u) k ∆ (if k ∈ l u then {u} else ∅) = if k ∈ done ++ [u] then ∅ else src l (done ++ [u]) k) ∧
      domAt d u = src l (done ++ [u]) u ∧ ∀ w ∈ done, src l done w = src l (done ++ [u]) w := by
    intro l d hd hD hl
    have hul : u ∉ l u := fun h => (hl u h).2 rfl
    refine ⟨fun k => ?_, ?_, ?_⟩
    · by_cases hk : k = u
      · subst hk
        rw [domAt_erase_self hd, if_neg hul, if_pos (by simp), symmDiff_none]
      · rw [domAt_erase hd (Ne.symm hk), hD]
        by_cases hk' : k ∈ done
        · rw [if_pos hk', if_neg fun h => (hl k h).1 hk', if_pos (by simp [hk']), symmDiff_none]
        · rw [if_neg hk', if_neg (show ¬ k ∈ done ++ [u] by simp [hk, hk']), src_snoc hu]
    · rw [hD, if_neg hu, src_snoc_of_not hul]
    · intro w hw
      rw [src_snoc_of_not fun h => (hl w h).1 hw]
  obtain ⟨kx1, kx2, kx3⟩ := key xl _ h.nx h.x fun w hw => hl w (Or.inl hw)
  obtain ⟨kz1, kz2, kz3⟩ := key zl _ h.nz h.z fun w hw => hl w (Or.inr hw)
  refine ⟨{ b1 with zDict := z, xDict := x }, ?_, h.c, ?_, x2, z2, fun k => ?_, fun k => ?_⟩
  · unfold blockOf
    simp only [run, step, measureCase_nil h.c, bind, Except.bind]
    rw [run_append, ← hb1, z1]
    simp only [bind, Except.bind, x1]
  · simp only [hb1]
    rw [h.m, kx2, kz2, List.map_append]
    congr 1
    apply List.map_congr_left
    intro w hw
    rw [kx3 w hw, kz3 w hw]
  · rw [← kx1]; exact x3 k
  · rw [← kz1]; exact z3 k

theorem BlockInv.blocks {meas : ℕ → Measurement} {xl zl : ℕ → List ℕ} (hx : ∀ u, (xl u).Nodup) (hz : ∀ u, (zl u).Nodup) (order : List ℕ) :
    ∀ {done : List ℕ} {b : StdBody}, BlockInv meas xl zl done b → (done ++ order).Nodup →
    (∀ pre u post, done ++ order = pre ++ u :: post → ∀ w, w ∈ xl u ∨ w ∈ zl u → w ∉ pre ∧ w ≠ u) →
    ∃ b', b.run (order.flatMap (blockOf meas xl zl)) = .ok b' ∧ BlockInv meas xl zl (done ++ order) b' := by
  induction order with
  | nil => intro done b h _ _; exact ⟨b, rfl, by simpa using h⟩
  | cons u order ih =>
    intro done b h hnd hl
    have hu : u ∉ done := fun hc => (List.nodup_append.1 hnd).2.2 u hc u (by simp) rfl
    obtain ⟨b1, h1, h2⟩ := h.block hu (hx u) (hz u) (hl done u order rfl)
    obtain ⟨b2, h3, h4⟩ := ih h2 (by simpa using hnd) (by simpa using hl)
    refine ⟨b2, ?_, by simpa using h4⟩
    rw [List.flatMap_cons, run_append, h1]
    exact h3

theorem set_append {d : PyDict ℕ Clifford} {k : ℕ} {v : Clifford} (h : k ∉ d.keys) : PyDict.set d k v = d ++ [(k, v)] := by
  induction d with
  | nil => rfl
  | cons a d ih =>
    obtain ⟨k', v'⟩ := a
    simp only [PyDict.keys, List.map_cons, List.mem_cons, not_or] at h
    simp only [PyDict.set]
    rw [if_neg (Ne.symm h.1), ih h.2]
    rfl

theorem run_cs (l : List (ℕ × Clifford)) : ∀ b : StdBody, (b.cDict ++ l).map Prod.fst |>.Nodup →
    b.run (l.map fun kv => Command.C kv.1 kv.2) = .ok { b with cDict := b.cDict ++ l } := by
  induction l with
  | nil => intro b _; simp [run]
  | cons a l ih =>
    intro b h
    have ha : a.1 ∉ PyDict.keys b.cDict := by
      rw [List.map_append, List.nodup_append] at h
      exact fun hc => h.2.2 a.1 hc a.1 (by simp) rfl
    simp only [List.map_cons, run, step, bind, Except.bind, (PyDict.get?_eq_none_iff _ _).2 ha, Option.getD_none, Clifford.mul_I, set_append ha]
    rw [ih _ (by simpa using h)]
    simp

/-- The standard form of a pattern built from corrections. -/
theorem run_patternCmds {og : OpenGraph} (hck : og.cliffords.keys.Nodup) (ns : List ℕ) {meas : ℕ → Measurement} {xl zl : ℕ → List ℕ}
    (hx : ∀ u, (xl u).Nodup) (hz : ∀ u, (zl u).Nodup) {order : List ℕ} (hnd : order.Nodup)
    (hl : ∀ pre u post, order = pre ++ u :: post → ∀ w, w ∈ xl u ∨ w ∈ zl u → w ∉ pre ∧ w ≠ u) :
    ∃ b, StdBody.init.run (patternCmds ns og meas xl zl order) = .ok b ∧ b.cDict = og.cliffords ∧
      b.mList = (order.map fun w => ⟨w, meas w, src xl order w, src zl order w⟩) ∧ b.xDict.keys.Nodup ∧ b.zDict.keys.Nodup ∧
      (∀ k, domAt b.xDict k = if k ∈ order then ∅ else src xl order k) ∧
      ∀ k, domAt b.zDict k = if k ∈ order then ∅ else src zl order k := by
  set b1 : StdBody := { StdBody.init with nList := StdBody.init.nList ++ ns.map fun n => (n, PlanarState.plus) } with hb1
  obtain ⟨s, hs⟩ := run_es og.edges b1 rfl rfl
  obtain ⟨b, h1, h2⟩ := BlockInv.blocks (meas := meas) hx hz order (done := []) (b := { b1 with eSet := s })
    ⟨rfl, rfl, List.nodup_nil, List.nodup_nil, fun k => rfl, fun k => rfl⟩ hnd hl
  refine ⟨{ b with cDict := og.cliffords }, ?_, rfl, h2.m, h2.nx, h2.nz, h2.x, h2.z⟩
  unfold patternCmds
  rw [run_append, run_ns]
  simp only [bind, Except.bind]
  rw [run_append, ← hb1, hs]
  simp only [bind, Except.bind]
  rw [run_append, h1]
  simp only [bind, Except.bind]
  rw [run_cs og.cliffords b (by rw [h2.c]; exact hck), h2.c]
  rfl

end StdBody

/-- The domains of the standard form are the corrections. -/
theorem dom_of_src {mList : List MCmd} {d : PyDict ℕ (Finset ℕ)} (hd : d.keys.Nodup) {xl : ℕ → List ℕ} {order : List ℕ} (dom : MCmd → Finset ℕ)
    {mk : ℕ → MCmd} (hm : mList = order.map mk) (hnode : ∀ w, (mk w).node = w) (hdom : ∀ w, dom (mk w) = StdBody.src xl order w)
    (hx : ∀ k, domAt d k = if k ∈ order then ∅ else StdBody.src xl order k) (u w : ℕ) :
    ((∃ m ∈ mList, m.node = w ∧ u ∈ dom m) ∨ ∃ D, (w, D) ∈ d ∧ u ∈ D) ↔ u ∈ order ∧ w ∈ xl u := by
  rw [← StdBody.mem_src]
  have h2 : (∃ D, (w, D) ∈ d ∧ u ∈ D) ↔ u ∈ domAt d w := by
    unfold domAt
    constructor
    · rintro ⟨D, h, h'⟩; rw [PyDict.get?_of_mem hd h]; exact h'
    · intro h
      cases hg : d.get? w with
      | none => rw [hg] at h; simp at h
      | some D => rw [hg] at h; exact ⟨D, PyDict.mem_of_get? hg, h⟩
  have h1 : (∃ m ∈ mList, m.node = w ∧ u ∈ dom m) ↔ w ∈ order ∧ u ∈ StdBody.src xl order w := by
    rw [hm]
    constructor
    · rintro ⟨m, h, h', h''⟩
      obtain ⟨k, hk, rfl⟩ := List.mem_map.1 h
      rw [hnode] at h'
      subst h'
      rw [hdom] at h''
      exact ⟨hk, h''⟩
    · rintro ⟨hk, h⟩
      exact ⟨mk w, List.mem_map_of_mem hk, hnode w, by rw [hdom]; exact h⟩
  rw [h1, h2, hx]
  by_cases h : w ∈ order <;> simp [h]

end Graphix
