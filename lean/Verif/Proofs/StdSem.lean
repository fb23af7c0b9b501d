import Verif.Props.StdOpenGraph
import Verif.Proofs.CliffordKet
import Verif.Proofs.Pauli
import Verif.Props.PauliPushing

/-! A standardized pattern with `|+⟩` preparations as local operators on an entangled state. -/

namespace Graphix

open Function

/-- Adjacency given by a set of edges. -/
def adjOf (E : Finset (Sym2 ℕ)) : ℕ → ℕ → Bool := fun x y => decide (s(x, y) ∈ E)

/-- What the pattern does to node `w` in branch `r` after the entanglement. -/
noncomputable def StdPattern.nodeOp (sp : StdPattern) (r : ℕ → Bool) (w : ℕ) : Mat2 :=
  accum r (sp.mList.map MCmd.toCmd ++ (sp.zDict.map (fun kv => .Z kv.1 kv.2) ++ (sp.xDict.map (fun kv => .X kv.1 kv.2) ++
    sp.cDict.map (fun kv => .C kv.1 kv.2)))) w 1

/-- The Clifford of a node. -/
def cliffAt (d : PyDict ℕ Clifford) (w : ℕ) : Clifford := (PyDict.get? d w).getD Clifford.I

theorem accum_cdict {r : ℕ → Bool} {w : ℕ} {d : PyDict ℕ Clifford} (hnd : (PyDict.keys d).Nodup) (A : Mat2) :
    accum r (d.map fun kv => Command.C kv.1 kv.2) w A = (cliffAt d w).matrix * A := by
  induction d generalizing A with
  | nil => simp [cliffAt, PyDict.get?, Clifford.matrix_I]
  | cons kv d ih =>
    obtain ⟨k, C⟩ := kv
    have hnd' : k ∉ PyDict.keys d ∧ (PyDict.keys d).Nodup := by
      simpa [PyDict.keys] using hnd
    rw [List.map_cons, accum_cons (n := k) (U := C.matrix) rfl, ih hnd'.2]
    by_cases h : k = w
    · subst h
      have h1 : PyDict.get? d k = none := (PyDict.get?_eq_none_iff d k).2 hnd'.1
      simp [cliffAt, PyDict.get?_cons, h1, Clifford.matrix_I]
    · rw [if_neg h]
      simp [cliffAt, PyDict.get?_cons, h]

theorem StdPattern.WF.nodeOp_meas {sp : StdPattern} (hw : sp.WF) (r : ℕ → Bool) {m : MCmd} (hm : m ∈ sp.mList) :
    sp.nodeOp r m.node =
      bra (measVec m.measurement (r m.node)) * (powB Ops.X (parity r m.sDomain) * powB Ops.Z (parity r m.tDomain)) := by
  have hwm : m.node ∈ sp.measNodes := List.mem_map_of_mem hm
  have hno : m.node ∉ sp.outputs := fun h => ((hw.out _).1 h).2 hwm
  unfold StdPattern.nodeOp
  rw [accum_append, accum_append, accum_append, (accum_mcmds hw.m_nodup 1).2 m hm rfl, accum_zdict hw.nz, accum_xdict hw.nx,
    accum_cdict hw.nc, domAt_empty fun h => hno (hw.lx _ h), domAt_empty fun h => hno (hw.lz _ h)]
  have hc : cliffAt sp.cDict m.node = Clifford.I := by
    unfold cliffAt
    have : PyDict.get? sp.cDict m.node = none := (PyDict.get?_eq_none_iff _ _).2 fun h => hno (hw.lc _ h)
    rw [this]; rfl
  rw [hc, Clifford.matrix_I]
  simp [parity_empty, powB]

theorem StdPattern.WF.nodeOp_out {sp : StdPattern} (hw : sp.WF) (r : ℕ → Bool) {w : ℕ} (hm : w ∉ sp.measNodes) :
    sp.nodeOp r w = (cliffAt sp.cDict w).matrix *
      (powB Ops.X (parity r (domAt sp.xDict w)) * powB Ops.Z (parity r (domAt sp.zDict w))) := by
  unfold StdPattern.nodeOp
  rw [accum_append, accum_append, accum_append, (accum_mcmds hw.m_nodup 1).1 hm, accum_zdict hw.nz, accum_xdict hw.nx,
    accum_cdict hw.nc, Matrix.mul_one]

theorem mem_edgesOf {adj : ℕ → ℕ → Bool} {l : List ℕ} {e : ℕ × ℕ} (h : e ∈ edgesOf adj l) :
    e.1 ∈ l ∧ e.2 ∈ l ∧ adj e.1 e.2 = true := by
  induction l with
  | nil => simp [edgesOf] at h
  | cons a l ih =>
    simp only [edgesOf, List.mem_append, List.mem_map, List.mem_filter] at h
    rcases h with ⟨v, ⟨hv, ha⟩, rfl⟩ | h
    · exact ⟨by simp, by simp [hv], ha⟩
    · exact ⟨by simp [(ih h).1], by simp [(ih h).2.1], (ih h).2.2⟩

theorem mem_edgesOf_iff {adj : ℕ → ℕ → Bool} {l : List ℕ} (hs : ∀ x y, adj x y = adj y x) (hi : ∀ x, adj x x = false) (x y : ℕ) :
    s(x, y) ∈ (edgesOf adj l).map (fun e => s(e.1, e.2)) ↔ x ∈ l ∧ y ∈ l ∧ adj x y = true := by
  constructor
  · intro h
    obtain ⟨e, he, h⟩ := List.mem_map.1 h
    obtain ⟨h1, h2, h3⟩ := mem_edgesOf he
    rcases Sym2.eq_iff.1 h with ⟨rfl, rfl⟩ | ⟨rfl, rfl⟩
    · exact ⟨h1, h2, h3⟩
    · exact ⟨h2, h1, by rw [hs]; exact h3⟩
  · induction l with
    | nil => simp
    | cons a l ih =>
      rintro ⟨hx, hy, ha⟩
      have hne : x ≠ y := by rintro rfl; rw [hi] at ha; cases ha
      simp only [edgesOf, List.map_append, List.mem_append]
      by_cases h1 : x = a
      · subst h1
        left
        have : y ∈ l := by simpa [hne.symm] using hy
        simp only [List.mem_map, List.mem_filter]
        exact ⟨(x, y), ⟨y, ⟨this, ha⟩, rfl⟩, rfl⟩
      · by_cases h2 : y = a
        · subst h2
          left
          have : x ∈ l := by simpa [h1] using hx
          simp only [List.mem_map, List.mem_filter]
          exact ⟨(y, x), ⟨x, ⟨this, by rw [hs]; exact ha⟩, rfl⟩, Sym2.eq_swap⟩
        · right
          exact ih ⟨by simpa [h1] using hx, by simpa [h2] using hy, ha⟩

theorem edgesOf_nodup {adj : ℕ → ℕ → Bool} {l : List ℕ} (hl : l.Nodup) :
    ((edgesOf adj l).map (fun e => s(e.1, e.2))).Nodup := by
  induction l with
  | nil => simp [edgesOf]
  | cons a l ih =>
    rw [List.nodup_cons] at hl
    rw [edgesOf, List.map_append, List.nodup_append]
    refine ⟨?_, ih hl.2, ?_⟩
    · rw [List.map_map]
      refine (hl.2.filter _).map_on ?_
      intro x hx y hy h
      simp only [comp_apply, Sym2.eq_iff] at h
      rcases h with ⟨-, h⟩ | ⟨h1, h2⟩
      · exact h
      · exact h2.trans h1
    · rintro e he e' he' rfl
      simp only [List.mem_map, List.mem_filter] at he he'
      obtain ⟨-, ⟨v, -, rfl⟩, rfl⟩ := he
      obtain ⟨e', he', h⟩ := he'
      obtain ⟨h1, h2, -⟩ := mem_edgesOf he'
      rcases Sym2.eq_iff.1 h with ⟨h3, -⟩ | ⟨-, h3⟩
      · exact hl.1 (by rw [show a = e'.1 from h3.symm]; exact h1)
      · exact hl.1 (by rw [show a = e'.2 from h3.symm]; exact h2)

theorem entangleAll_eq_czSet {adj : ℕ → ℕ → Bool} {l : List ℕ} (h : l.Nodup) (φ : QState) :
    entangleAll adj l φ = czSet ((edgesOf adj l).map (fun e => s(e.1, e.2))).toFinset φ := by
  rw [← semCmds_edges (fun _ => false) _ _ (edgesOf_nodup h)]
  unfold entangleAll semCmds
  rw [List.foldl_map]
  rfl

theorem czSet_eq_entangleAll {E : Finset (Sym2 ℕ)} {l : List ℕ} (hl : l.Nodup) (he : ∀ e ∈ E, ∀ k ∈ e, k ∈ l)
    (hd : ∀ e ∈ E, ¬ e.IsDiag) (φ : QState) : czSet E φ = entangleAll (adjOf E) l φ := by
  rw [entangleAll_eq_czSet hl]
  congr 1
  ext e
  induction e with
  | _ x y =>
    rw [List.mem_toFinset, mem_edgesOf_iff]
    · unfold adjOf
      simp only [decide_eq_true_eq]
      constructor
      · intro h; exact ⟨he _ h x (by simp), he _ h y (by simp), h⟩
      · intro h; exact h.2.2
    · intro x y; unfold adjOf; rw [Sym2.eq_swap]
    · intro x; unfold adjOf; simp only [decide_eq_false_iff_not]
      intro h; exact hd _ h (by simp)

theorem prep_plus (n : ℕ) (ψ : QState) : prep n PlanarState.plus.vec ψ = (1 / (Real.sqrt 2 : ℂ)) • ψ := by
  funext b
  show PlanarState.plus.vec (b n) * ψ b = _
  cases b n <;> simp [PlanarState.plus, PlanarState.vec, planarState]

theorem semCmds_plus (r : ℕ → Bool) {ns : List (ℕ × PlanarState)} (h : ∀ n ∈ ns, n.2 = PlanarState.plus) (ψ : QState) :
    semCmds r (ns.map nCmd) ψ = (1 / (Real.sqrt 2 : ℂ)) ^ ns.length • ψ := by
  induction ns generalizing ψ with
  | nil => simp
  | cons n ns ih =>
    rw [List.map_cons, semCmds_cons, ih fun n hn => h n (by simp [hn])]
    show _ • prep n.1 n.2.vec ψ = _
    rw [h n (by simp), prep_plus, smul_smul, ← pow_succ]; rfl

theorem StdPattern.WF.simple {sp : StdPattern} (hw : sp.WF) {l : List ℕ} (hl : l.Perm sp.nodeList) :
    SimpleOn (adjOf sp.eSet) l := by
  refine ⟨hl.nodup_iff.2 hw.nodes_nodup, fun x y => ?_, fun x => ?_, fun x y h => ?_⟩
  · unfold adjOf; rw [Sym2.eq_swap]
  · unfold adjOf; simp only [decide_eq_false_iff_not]; intro h; exact hw.loop _ h (by simp)
  · unfold adjOf at h; simp only [decide_eq_true_eq] at h
    exact hl.mem_iff.2 (hw.edge _ h x (by simp))

/-- **Closed form** of a standardized pattern whose preparations are all `|+⟩`. -/
theorem StdPattern.WF.closed {sp : StdPattern} (hw : sp.WF) (hplus : ∀ n ∈ sp.nList, n.2 = PlanarState.plus) {l : List ℕ}
    (hl : l.Perm sp.nodeList) (edges : List (ℕ × ℕ)) (hen : StdPattern.Enumerates edges sp.eSet) (r : ℕ → Bool) (ψ : QState) :
    semCmds r (sp.cmds edges) ψ = (1 / (Real.sqrt 2 : ℂ)) ^ sp.nList.length •
      locOps (sp.nodeOp r) l (entangleAll (adjOf sp.eSet) l ψ) := by
  have hnd : l.Nodup := hl.nodup_iff.2 hw.nodes_nodup
  have hout : ∀ k ∈ sp.outputs, k ∈ l := fun k hk => hl.mem_iff.2 ((hw.out k).1 hk).1
  have e1 : sp.cmds edges = sp.nList.map nCmd ++ (edges.map (fun e => .E e.1 e.2) ++ (sp.mList.map MCmd.toCmd ++
      (sp.zDict.map (fun kv => .Z kv.1 kv.2) ++ (sp.xDict.map (fun kv => .X kv.1 kv.2) ++
    sp.cDict.map (fun kv => .C kv.1 kv.2))))) := by
    simp only [StdPattern.cmds, List.append_assoc]; rfl
  rw [e1, semCmds_append, semCmds_append, semCmds_plus r hplus, semCmds_edges r edges _ hen.1, hen.2, czSet_homog, semCmds_homog]
  congr 1
  rw [czSet_eq_entangleAll hnd (fun e he k hk => hl.mem_iff.2 (hw.edge e he k hk)) hw.loop]
  conv_lhs => rw [← locOps_one l (entangleAll (adjOf sp.eSet) l ψ)]
  rw [semCmds_locOps hnd]
  · rfl
  · intro c hc
    rcases List.mem_append.1 hc with hc | hc
    · obtain ⟨m, hm, rfl⟩ := List.mem_map.1 hc
      exact ⟨m.node, _, rfl, hl.mem_iff.2 (hw.m_sub _ (List.mem_map_of_mem hm))⟩
    · rcases List.mem_append.1 hc with hc | hc
      · obtain ⟨kv, hkv, rfl⟩ := List.mem_map.1 hc
        exact ⟨kv.1, _, rfl, hout _ (hw.lz _ (List.mem_map_of_mem hkv))⟩
      · rcases List.mem_append.1 hc with hc | hc
        · obtain ⟨kv, hkv, rfl⟩ := List.mem_map.1 hc
          exact ⟨kv.1, _, rfl, hout _ (hw.lx _ (List.mem_map_of_mem hkv))⟩
        · obtain ⟨kv, hkv, rfl⟩ := List.mem_map.1 hc
          exact ⟨kv.1, _, rfl, hout _ (hw.lc _ (List.mem_map_of_mem hkv))⟩

end Graphix
