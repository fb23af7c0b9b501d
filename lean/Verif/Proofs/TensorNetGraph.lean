import Verif.Proofs.TensorNetRun
import Verif.Proofs.TensorNetRead

/-!
# The tensor network of a graph state
-/

namespace Graphix

open Function TensorNet

/-- The bonds of a node, with the kind of vector of the node along each of them. -/
def incident (v : ℕ) : List ((ℕ × ℕ) × ℕ) → List (ℕ × Bool)
  | [] => []
  | (e, k) :: recs =>
    if e.1 = v then (k, decide (e.1 > e.2)) :: incident v recs
    else if e.2 = v then (k, !decide (e.1 > e.2)) :: incident v recs
    else incident v recs

theorem incident_append (v : ℕ) (l l' : List ((ℕ × ℕ) × ℕ)) : incident v (l ++ l') = incident v l ++ incident v l' := by
  induction l with
  | nil => rfl
  | cons x l ih =>
    obtain ⟨e, k⟩ := x
    simp only [List.cons_append, incident, ih]
    split
    · rfl
    · split <;> rfl

/-- A node is on one of the edges. -/
def Touched (recs : List ((ℕ × ℕ) × ℕ)) (v : ℕ) : Prop := ∃ x ∈ recs, x.1.1 = v ∨ x.1.2 = v

/-- The variables of the first loop after some edges, each with its bond. -/
structure PrepInv (recs : List ((ℕ × ℕ) × ℕ)) (g : GraphPrep) : Prop where
  none : ∀ v, ¬ Touched recs v → g.indDict.get? v = none
  dang : ∀ v, Touched recs v → ∃ i, g.dangling.get? v = some i ∧ g.indDict.get? v = some (i :: (incident v recs).map Prod.fst) ∧
    g.vecDict.get? v = some ((incident v recs).map Prod.snd) ∧ i < g.fresh
  inj : ∀ v w i, Touched recs v → Touched recs w → g.dangling.get? v = some i → g.dangling.get? w = some i → v = w
  bond : ∀ x ∈ recs, x.2 < g.fresh
  bonds : (recs.map Prod.snd).Nodup
  disj : ∀ v i, Touched recs v → g.dangling.get? v = some i → i ∉ recs.map Prod.snd

theorem PrepInv.init : PrepInv [] ⟨[], [], [], 0⟩ where
  none _ _ := rfl
  dang v h := by obtain ⟨x, hx, -⟩ := h; simp at hx
  inj v w i h := by obtain ⟨x, hx, -⟩ := h; simp at hx
  bond := by simp
  bonds := by simp
  disj v i h := by obtain ⟨x, hx, -⟩ := h; simp at hx

/-- The same, when some nodes that are on no edge have an entry with no bond. -/
structure PrepInv' (recs : List ((ℕ × ℕ) × ℕ)) (K : ℕ → Prop) (g : GraphPrep) : Prop where
  none : ∀ v, ¬ K v → g.indDict.get? v = none
  dang : ∀ v, K v → ∃ i, g.dangling.get? v = some i ∧ g.indDict.get? v = some (i :: (incident v recs).map Prod.fst) ∧
    g.vecDict.get? v = some ((incident v recs).map Prod.snd) ∧ i < g.fresh
  inj : ∀ v w i, K v → K w → g.dangling.get? v = some i → g.dangling.get? w = some i → v = w
  bond : ∀ x ∈ recs, x.2 < g.fresh
  bonds : (recs.map Prod.snd).Nodup
  disj : ∀ v i, K v → g.dangling.get? v = some i → i ∉ recs.map Prod.snd
  sub : ∀ v, Touched recs v → K v

theorem incident_nil {v : ℕ} : ∀ {recs : List ((ℕ × ℕ) × ℕ)}, ¬ Touched recs v → incident v recs = []
  | [], _ => rfl
  | (e, k) :: recs, h => by
    unfold incident
    rw [if_neg fun hc => h ⟨(e, k), by simp, Or.inl hc⟩, if_neg fun hc => h ⟨(e, k), by simp, Or.inr hc⟩]
    exact incident_nil fun ⟨x, hx, hxv⟩ => h ⟨x, by simp [hx], hxv⟩

theorem PrepInv'.prepNode {recs : List ((ℕ × ℕ) × ℕ)} {K : ℕ → Prop} {g : GraphPrep} (h : PrepInv' recs K g) (n : ℕ) :
    PrepInv' recs (fun v => K v ∨ v = n) (TensorNet.prepNode g n) := by
  unfold TensorNet.prepNode
  by_cases hn : K n
  · obtain ⟨i, h1, h2, h3, h4⟩ := h.dang n hn
    have hc : g.indDict.contains n = true := by
      rw [PyDict.contains_iff, ← PyDict.get?_isSome_iff, h2]; rfl
    rw [if_pos hc]
    have hK : (fun v => K v ∨ v = n) = K := by
      funext v; apply propext
      constructor
      · rintro (hv | rfl) <;> assumption
      · exact Or.inl
    rw [hK]; exact h
  · have h0 := h.none n hn
    have hc : ¬ g.indDict.contains n = true := by
      rw [PyDict.contains_iff, ← PyDict.get?_isSome_iff, h0]; simp
    rw [if_neg hc]
    have hne : ∀ v, K v → n ≠ v := by rintro v hv rfl; exact hn hv
    have hinc : incident n recs = [] := incident_nil fun ht => hn (h.sub n ht)
    have hget : ∀ v i, K v ∨ v = n → (g.dangling.set n g.fresh).get? v = some i → (v = n ∧ i = g.fresh) ∨ (K v ∧ g.dangling.get? v = some i ∧ i < g.fresh) := by
      intro v i hv hi
      rcases hv with hv | rfl
      · rw [PyDict.get?_set_ne _ _ (hne v hv)] at hi
        obtain ⟨j, h1, -, -, h4⟩ := h.dang v hv
        rw [h1] at hi; cases hi
        exact Or.inr ⟨hv, h1, h4⟩
      · rw [PyDict.get?_set_self] at hi; cases hi
        exact Or.inl ⟨rfl, rfl⟩
    refine ⟨fun v hv => ?_, fun v hv => ?_, fun v w i hv hw hvi hwi => ?_, fun x hx => ?_, h.bonds, fun v i hv hi => ?_, fun v hv => Or.inl (h.sub v hv)⟩
    · rw [not_or] at hv
      dsimp only
      rw [PyDict.get?_set_ne _ _ (Ne.symm hv.2)]
      exact h.none v hv.1
    · dsimp only
      rcases hv with hv | rfl
      · rw [PyDict.get?_set_ne _ _ (hne v hv), PyDict.get?_set_ne _ _ (hne v hv), PyDict.get?_set_ne _ _ (hne v hv)]
        obtain ⟨i, h1, h2, h3, h4⟩ := h.dang v hv
        exact ⟨i, h1, h2, h3, by omega⟩
      · rw [PyDict.get?_set_self, PyDict.get?_set_self, PyDict.get?_set_self]
        exact ⟨g.fresh, rfl, by rw [hinc]; rfl, by rw [hinc]; rfl, by omega⟩
    · rcases hget v i hv hvi with ⟨h1, h2⟩ | ⟨h1, h2, h3⟩ <;> rcases hget w i hw hwi with ⟨h4, h5⟩ | ⟨h4, h5, h6⟩
      · exact h1.trans h4.symm
      · omega
      · omega
      · exact h.inj v w i h1 h4 h2 h5
    · have := h.bond x hx; dsimp only; omega
    · rcases hget v i hv hi with ⟨rfl, rfl⟩ | ⟨h1, h2, h3⟩
      · intro hc
        obtain ⟨x, hx, hxe⟩ := List.mem_map.1 hc
        have := h.bond x hx
        omega
      · exact h.disj v i h1 h2

theorem appendTo_get {β : Type} (d : PyDict ℕ (List β)) (k : ℕ) (x : β) (v : ℕ) :
    (appendTo d k x).get? v = if k = v then some ((d.get? k).getD [] ++ [x]) else d.get? v := by
  unfold appendTo
  rw [PyDict.get?_set]

theorem PrepInv.prepEdge {recs : List ((ℕ × ℕ) × ℕ)} {g : GraphPrep} (h : PrepInv recs g) (e : ℕ × ℕ) (he : e.1 ≠ e.2) :
    PrepInv (recs ++ [(e, (TensorNet.prepEdge g e).fresh - 1)]) (TensorNet.prepEdge g e) := by
  have h0 : PrepInv' recs (Touched recs) g := ⟨h.none, h.dang, h.inj, h.bond, h.bonds, h.disj, fun v hv => hv⟩
  have h2 := (h0.prepNode e.1).prepNode e.2
  set g2 := TensorNet.prepNode (TensorNet.prepNode g e.1) e.2 with hg2
  have hE : TensorNet.prepEdge g e = ⟨appendTo (appendTo g2.indDict e.1 g2.fresh) e.2 g2.fresh,
    appendTo (appendTo g2.vecDict e.1 (decide (e.1 > e.2))) e.2 (!decide (e.1 > e.2)), g2.dangling, g2.fresh + 1⟩ := rfl
  rw [hE]
  have hK : ∀ v, Touched (recs ++ [(e, g2.fresh + 1 - 1)]) v ↔ (Touched recs v ∨ v = e.1) ∨ v = e.2 := by
    intro v
    unfold Touched
    simp only [List.mem_append, List.mem_singleton]
    constructor
    · rintro ⟨x, hx | rfl, hv⟩
      · exact Or.inl (Or.inl ⟨x, hx, hv⟩)
      · rcases hv with hv | hv
        · exact Or.inl (Or.inr hv.symm)
        · exact Or.inr hv.symm
    · rintro ((⟨x, hx, hv⟩ | rfl) | rfl)
      · exact ⟨x, Or.inl hx, hv⟩
      · exact ⟨_, Or.inr rfl, Or.inl rfl⟩
      · exact ⟨_, Or.inr rfl, Or.inr rfl⟩
  have hnew : g2.fresh + 1 - 1 = g2.fresh := by omega
  refine ⟨fun v hv => ?_, fun v hv => ?_, fun v w i hv hw hvi hwi => ?_, fun x hx => ?_, ?_, fun v i hv hi => ?_⟩
  · rw [hK, not_or, not_or] at hv
    dsimp only
    rw [appendTo_get, if_neg (Ne.symm hv.2), appendTo_get, if_neg (Ne.symm hv.1.2)]
    exact h2.none v (by rw [not_or, not_or]; exact hv)
  · rw [hK] at hv
    obtain ⟨i, d1, d2, d3, d4⟩ := h2.dang v hv
    refine ⟨i, d1, ?_, ?_, by dsimp only; omega⟩
    · dsimp only
      rw [incident_append, List.map_append, appendTo_get, appendTo_get, appendTo_get]
      by_cases h1v : e.1 = v
      · subst h1v
        rw [if_neg (Ne.symm he), if_pos rfl, d2]
        simp [incident]
      · by_cases h2v : e.2 = v
        · subst h2v
          rw [if_pos rfl, if_neg he, d2]
          simp [incident, he]
        · rw [if_neg h2v, if_neg h1v, d2]
          simp [incident, h1v, h2v]
    · dsimp only
      rw [incident_append, List.map_append, appendTo_get, appendTo_get, appendTo_get]
      by_cases h1v : e.1 = v
      · subst h1v
        rw [if_neg (Ne.symm he), if_pos rfl, d3]
        simp [incident]
      · by_cases h2v : e.2 = v
        · subst h2v
          rw [if_pos rfl, if_neg he, d3]
          simp [incident, he]
        · rw [if_neg h2v, if_neg h1v, d3]
          simp [incident, h1v, h2v]
  · exact h2.inj v w i ((hK v).1 hv) ((hK w).1 hw) hvi hwi
  · rcases List.mem_append.1 hx with hx | hx
    · have := h2.bond x hx; dsimp only; omega
    · simp only [List.mem_singleton] at hx; subst hx; dsimp only; omega
  · rw [List.map_append, List.nodup_append]
    refine ⟨h2.bonds, by simp, ?_⟩
    intro a ha b hb
    simp only [List.map_cons, List.map_nil, List.mem_singleton] at hb
    obtain ⟨x, hx, rfl⟩ := List.mem_map.1 ha
    have := h2.bond x hx
    omega
  · rw [List.map_append, List.mem_append, not_or]
    refine ⟨h2.disj v i ((hK v).1 hv) hi, ?_⟩
    obtain ⟨j, d1, -, -, d4⟩ := h2.dang v ((hK v).1 hv)
    dsimp only at hi
    rw [d1] at hi; cases hi
    simp only [List.map_cons, List.map_nil, List.mem_singleton]
    omega

theorem prepEdges_inv : ∀ (edges : List (ℕ × ℕ)) (recs : List ((ℕ × ℕ) × ℕ)) (g : GraphPrep), PrepInv recs g → (∀ e ∈ edges, e.1 ≠ e.2) →
    ∃ recs', PrepInv (recs ++ recs') (edges.foldl TensorNet.prepEdge g) ∧ recs'.map Prod.fst = edges
  | [], recs, g, h, _ => ⟨[], by simpa using h, rfl⟩
  | e :: edges, recs, g, h, hE => by
    obtain ⟨recs', h1, h2⟩ := prepEdges_inv edges _ _ (h.prepEdge e (hE e (by simp))) fun e' he' => hE e' (by simp [he'])
    refine ⟨(e, (TensorNet.prepEdge g e).fresh - 1) :: recs', ?_, by simp [h2]⟩
    simpa using h1

/-- The tensor of a node, given its dangling index. -/
noncomputable def nodeTensor (g : GraphPrep) (i v : ℕ) : QTensor :=
  match g.indDict.get? v with
  | none => vecTensor (PlanarState.vec ⟨.XY, 0⟩) i v true
  | some inds => graphTensor inds ((g.vecDict.get? v).getD []) v

/-- The second loop, after the nodes `done`. -/
structure NodesInv (recs : List ((ℕ × ℕ) × ℕ)) (g : GraphPrep) (o : Option (List ℕ)) (done : List ℕ) (tn : TensorNet) : Prop where
  outs : tn.outputs = o
  tensors : tn.tensors = done.map fun v => nodeTensor g (tn.d v) v
  fresh : g.fresh ≤ tn.fresh
  touched : ∀ v, Touched recs v → tn.dangling.get? v = g.dangling.get? v
  alone : ∀ v ∈ done, ¬ Touched recs v → ∃ i, tn.dangling.get? v = some i ∧ g.fresh ≤ i ∧ i < tn.fresh
  inj : ∀ v ∈ done, ∀ w ∈ done, ¬ Touched recs v → ¬ Touched recs w → tn.d v = tn.d w → v = w

theorem prepTensor_inv {recs : List ((ℕ × ℕ) × ℕ)} {g : GraphPrep} (hg : PrepInv recs g) {o : Option (List ℕ)} :
    ∀ (nodes done : List ℕ) (tn : TensorNet), (done ++ nodes).Nodup → NodesInv recs g o done tn →
      NodesInv recs g o (done ++ nodes) (nodes.foldl (prepTensor g.indDict g.vecDict) tn)
  | [], done, tn, _, h => by simpa using h
  | n :: nodes, done, tn, hnd, h => by
    have hnd' : (done ++ [n] ++ nodes).Nodup := by simpa using hnd
    have hn : n ∉ done := by
      intro hc
      exact (List.nodup_append.1 hnd).2.2 n hc n (by simp) rfl
    rw [List.foldl_cons, show done ++ n :: nodes = done ++ [n] ++ nodes by simp]
    refine prepTensor_inv hg nodes (done ++ [n]) _ hnd' ?_
    unfold prepTensor
    by_cases ht : Touched recs n
    · obtain ⟨i, d1, d2, d3, d4⟩ := hg.dang n ht
      rw [d2]
      refine ⟨h.outs, ?_, h.fresh, h.touched, ?_, ?_⟩
      · dsimp only
        rw [h.tensors, List.map_append]
        congr 1
        simp only [List.map_cons, List.map_nil, nodeTensor, d2]
      · intro v hv hvt
        rcases List.mem_append.1 hv with hv | hv
        · exact h.alone v hv hvt
        · simp only [List.mem_singleton] at hv; subst hv; exact absurd ht hvt
      · intro v hv w hw hvt hwt e
        have key : ∀ v ∈ done ++ [n], ¬ Touched recs v → v ∈ done := by
          intro v hv hvt
          rcases List.mem_append.1 hv with hv | hv
          · exact hv
          · simp only [List.mem_singleton] at hv; subst hv; exact absurd ht hvt
        exact h.inj v (key v hv hvt) w (key w hw hwt) hvt hwt e
    · have d2 := hg.none n ht
      rw [d2]
      obtain ⟨ts, f, dn, out⟩ := tn
      dsimp only
      have hd : ∀ m, TensorNet.d ⟨ts ++ [vecTensor (PlanarState.vec ⟨.XY, 0⟩) f n true], f + 1, dn.set n f, out⟩ m =
          if m = n then f else TensorNet.d ⟨ts, f, dn, out⟩ m := fun m => d_set _ _ _ _ _ _ _
      have hne : ∀ v ∈ done, v ≠ n := by rintro v hv rfl; exact hn hv
      have hfr := h.fresh
      dsimp only at hfr
      have hlt : ∀ v ∈ done, ¬ Touched recs v → TensorNet.d ⟨ts, f, dn, out⟩ v < f := by
        intro v hv hvt
        obtain ⟨i, h1, h2, h3⟩ := h.alone v hv hvt
        unfold TensorNet.d
        dsimp only at h1 h3 ⊢
        rw [h1]; exact h3
      refine ⟨h.outs, ?_, by dsimp only; omega, ?_, ?_, ?_⟩
      · dsimp only
        have := h.tensors
        dsimp only at this
        rw [this, List.map_append]
        congr 1
        · refine List.map_congr_left fun v hv => ?_
          rw [← this, hd, if_neg (hne v hv)]
        · rw [← this]
          simp only [List.map_cons, List.map_nil, hd, if_true, nodeTensor, d2]
      · intro v hv
        dsimp only
        rw [PyDict.get?_set_ne _ _ (by rintro rfl; exact ht hv)]
        exact h.touched v hv
      · intro v hv hvt
        rcases List.mem_append.1 hv with hv | hv
        · obtain ⟨i, h1, h2, h3⟩ := h.alone v hv hvt
          dsimp only at h1 h3 ⊢
          exact ⟨i, by rw [PyDict.get?_set_ne _ _ (Ne.symm (hne v hv)), h1], h2, by omega⟩
        · simp only [List.mem_singleton] at hv; subst hv
          exact ⟨f, PyDict.get?_set_self _ _ _, hfr, by dsimp only; omega⟩
      · intro v hv w hw hvt hwt e
        rw [hd, hd] at e
        rcases List.mem_append.1 hv with hv' | hv' <;> rcases List.mem_append.1 hw with hw' | hw'
        · rw [if_neg (hne v hv'), if_neg (hne w hw')] at e
          exact h.inj v hv' w hw' hvt hwt e
        · simp only [List.mem_singleton] at hw'
          rw [if_neg (hne v hv'), if_pos hw'] at e
          have := hlt v hv' hvt
          omega
        · simp only [List.mem_singleton] at hv'
          rw [if_neg (hne w hw'), if_pos hv'] at e
          have := hlt w hw' hwt
          omega
        · simp only [List.mem_singleton] at hv' hw'; rw [hv', hw']

/-! ### The value of the network -/

theorem outerProduct_eq : ∀ (vs : List (Bool → ℂ)) (l : List Bool), vs.length = l.length → outerProduct vs l = (List.zipWith (fun v x => v x) vs l).prod
  | [], _, _ => by simp [outerProduct]
  | v :: vs, [], h => by simp at h
  | v :: vs, x :: l, h => by
    have ih := outerProduct_eq vs l (by simpa using h)
    simp [outerProduct, ih]

/-- The factor of a bond. -/
noncomputable def bondFactor : ℂ := ((Real.rpow 2 (1 / 4) : ℝ) : ℂ)

theorem bondFactor_sq : bondFactor * bondFactor = (Real.sqrt 2 : ℂ) := by
  unfold bondFactor
  rw [← Complex.ofReal_mul]
  congr 1
  have : Real.rpow 2 (1 / 4) * Real.rpow 2 (1 / 4) = Real.rpow 2 (1 / 4 + 1 / 4) := (Real.rpow_add (by norm_num) _ _).symm
  rw [this, Real.sqrt_eq_rpow]
  norm_num

theorem rpow_prefactor (k : ℕ) : ((Real.rpow 2 ((k : ℝ) / 4 - 1 / 2) : ℝ) : ℂ) = bondFactor ^ k * (1 / (Real.sqrt 2 : ℂ)) := by
  unfold bondFactor
  rw [← Complex.ofReal_pow, ← Complex.ofReal_one, ← Complex.ofReal_div, ← Complex.ofReal_mul]
  congr 1
  have h1 : Real.rpow 2 ((k : ℝ) / 4 - 1 / 2) = Real.rpow 2 ((k : ℝ) / 4) / Real.rpow 2 (1 / 2) := Real.rpow_sub (by norm_num) _ _
  have h2 : Real.rpow 2 (1 / 4) ^ k = Real.rpow 2 ((k : ℝ) / 4) := by
    have : Real.rpow 2 (1 / 4) ^ k = Real.rpow 2 (1 / 4 * k) := (Real.rpow_mul_natCast (by norm_num) _ _).symm
    rw [this]; congr 1; ring
  rw [h1, h2, Real.sqrt_eq_rpow, div_eq_mul_one_div]
  rfl

/-- The value of the tensor of a node. -/
theorem nodeTensor_val {recs : List ((ℕ × ℕ) × ℕ)} {g : GraphPrep} (hg : PrepInv recs g) {i v : ℕ}
    (hi : Touched recs v → g.dangling.get? v = some i) (a : ℕ → Bool) :
    (nodeTensor g i v).val a = (1 / (Real.sqrt 2 : ℂ)) * ((incident v recs).map fun kf => bondFactor * vecState (a i) kf.2 (a kf.1)).prod := by
  unfold nodeTensor
  by_cases ht : Touched recs v
  · obtain ⟨j, d1, d2, d3, -⟩ := hg.dang v ht
    have hij := hi ht
    rw [d1] at hij; cases hij
    rw [d2, d3]
    simp only [QTensor.val, graphTensor, Option.getD_some, List.map_cons, List.getD_cons_zero, List.tail_cons, List.length_map]
    rw [rpow_prefactor, outerProduct_eq _ _ (by simp)]
    have key : ∀ l : List (ℕ × Bool), (List.zipWith (fun v x => v x) ((l.map Prod.snd).map (vecState (a i))) ((l.map Prod.fst).map a)).prod *
        bondFactor ^ l.length = (l.map fun kf => bondFactor * vecState (a i) kf.2 (a kf.1)).prod := by
      intro l
      induction l with
      | nil => simp
      | cons x l ih =>
        simp only [List.map_cons, List.zipWith_cons_cons, List.prod_cons, List.length_cons, pow_succ, ← ih]
        ring
    rw [← mul_assoc, key]; ring
  · rw [hg.none v ht, incident_nil ht]
    simp only [QTensor.val, vecTensor, PlanarState.vec, planarState]
    simp

/-- The bond between two nodes gives the sign of CZ. -/
theorem bond_sum (x y g : Bool) : bondFactor * vecState x g false * (bondFactor * vecState y (!g) false) +
    bondFactor * vecState x g true * (bondFactor * vecState y (!g) true) = if x && y then -1 else 1 := by
  have h2 : (Real.sqrt 2 : ℂ) ≠ 0 := by simp
  have e : ∀ p q r s : ℂ, bondFactor * p * (bondFactor * q) + bondFactor * r * (bondFactor * s) = (Real.sqrt 2 : ℂ) * (p * q + r * s) := by
    intro p q r s
    rw [← bondFactor_sq]; ring
  rw [e]
  have hpi : Complex.exp (Complex.I * Real.pi) = -1 := by rw [mul_comm, Complex.exp_pi_mul_I]
  cases g <;> cases x <;> cases y <;> simp [vecState, PlanarState.vec, planarState, hpi] <;> field_simp

/-- The product over the nodes is a product over the edges. -/
theorem prod_incident (S : Finset ℕ) (F : ℕ → ℕ × Bool → ℂ) : ∀ recs : List ((ℕ × ℕ) × ℕ), (∀ x ∈ recs, x.1.1 ∈ S ∧ x.1.2 ∈ S ∧ x.1.1 ≠ x.1.2) →
    ∏ v ∈ S, ((incident v recs).map (F v)).prod =
      (recs.map fun x => F x.1.1 (x.2, decide (x.1.1 > x.1.2)) * F x.1.2 (x.2, !decide (x.1.1 > x.1.2))).prod
  | [], _ => by simp [incident]
  | (e, k) :: recs, h => by
    have ih := prod_incident S F recs fun x hx => h x (by simp [hx])
    obtain ⟨h1, h2, h3⟩ := h (e, k) (by simp)
    dsimp only at h1 h2 h3
    rw [List.map_cons, List.prod_cons, ← ih]
    have key : ∀ v ∈ S, ((incident v ((e, k) :: recs)).map (F v)).prod =
        ((if v = e.1 then F e.1 (k, decide (e.1 > e.2)) else 1) * (if v = e.2 then F e.2 (k, !decide (e.1 > e.2)) else 1)) *
          ((incident v recs).map (F v)).prod := by
      intro v _
      simp only [incident]
      by_cases hv1 : e.1 = v
      · subst hv1
        simp [h3]
      · by_cases hv2 : e.2 = v
        · subst hv2
          simp [h3, Ne.symm h3]
        · simp [hv1, hv2, Ne.symm hv1, Ne.symm hv2]
    rw [Finset.prod_congr rfl key, Finset.prod_mul_distrib, Finset.prod_mul_distrib, Finset.prod_ite_eq' S e.1, Finset.prod_ite_eq' S e.2, if_pos h1, if_pos h2]

/-- The sum over the bonds. -/
theorem sumOver_bonds (D : ℕ → ℕ) : ∀ recs : List ((ℕ × ℕ) × ℕ), (recs.map Prod.snd).Nodup →
    (∀ x ∈ recs, D x.1.1 ∉ recs.map Prod.snd ∧ D x.1.2 ∉ recs.map Prod.snd) → ∀ a : ℕ → Bool,
    sumOver (recs.map Prod.snd).toFinset (fun a => (recs.map fun x => bondFactor * vecState (a (D x.1.1)) (decide (x.1.1 > x.1.2)) (a x.2) *
      (bondFactor * vecState (a (D x.1.2)) (!decide (x.1.1 > x.1.2)) (a x.2))).prod) a =
      (recs.map fun x => if a (D x.1.1) && a (D x.1.2) then (-1 : ℂ) else 1).prod
  | [], _, _, a => by simp [sumOver_empty]
  | (e, k) :: recs, hnd, hd, a => by
    rw [List.map_cons, List.nodup_cons] at hnd
    have hk : k ∉ (recs.map Prod.snd).toFinset := by simpa using hnd.1
    have hd' : ∀ x ∈ recs, D x.1.1 ∉ recs.map Prod.snd ∧ D x.1.2 ∉ recs.map Prod.snd := by
      intro x hx
      have := hd x (by simp [hx])
      simp only [List.map_cons, List.mem_cons, not_or] at this
      exact ⟨this.1.2, this.2.2⟩
    have he := hd (e, k) (by simp)
    simp only [List.map_cons, List.mem_cons, not_or] at he
    have hne : ∀ x ∈ recs, D x.1.1 ≠ k ∧ D x.1.2 ≠ k := by
      intro x hx
      have := hd x (by simp [hx])
      simp only [List.map_cons, List.mem_cons, not_or] at this
      exact ⟨this.1.1, this.2.1⟩
    rw [List.map_cons, List.toFinset_cons, sumOver_insert hk]
    simp only [List.map_cons, List.prod_cons]
    have ih := sumOver_bonds D recs hnd.2 hd'
    have fac : ∀ a, sumOver (recs.map Prod.snd).toFinset (fun a => (bondFactor * vecState (a (D e.1)) (decide (e.1 > e.2)) (a k) *
        (bondFactor * vecState (a (D e.2)) (!decide (e.1 > e.2)) (a k))) * (recs.map fun x => bondFactor * vecState (a (D x.1.1)) (decide (x.1.1 > x.1.2)) (a x.2) *
      (bondFactor * vecState (a (D x.1.2)) (!decide (x.1.1 > x.1.2)) (a x.2))).prod) a =
        (recs.map fun x => if a (D x.1.1) && a (D x.1.2) then (-1 : ℂ) else 1).prod * (bondFactor * vecState (a (D e.1)) (decide (e.1 > e.2)) (a k) *
        (bondFactor * vecState (a (D e.2)) (!decide (e.1 > e.2)) (a k))) := by
      intro a
      rw [← ih a, ← sumOver_mul (g := fun a => bondFactor * vecState (a (D e.1)) (decide (e.1 > e.2)) (a k) *
        (bondFactor * vecState (a (D e.2)) (!decide (e.1 > e.2)) (a k)))]
      · exact sumOver_congr (fun a => by ring) a
      · intro a a' haa
        rw [haa k hk, haa (D e.1) (by simpa using he.1.2), haa (D e.2) (by simpa using he.2.2)]
    rw [fac, fac]
    have hrest : ∀ x, (recs.map fun x' => if update a k x (D x'.1.1) && update a k x (D x'.1.2) then (-1 : ℂ) else 1) =
        recs.map fun x' => if a (D x'.1.1) && a (D x'.1.2) then (-1 : ℂ) else 1 := by
      intro x
      refine List.map_congr_left fun x' hx' => ?_
      rw [update_of_ne (hne x' hx').1, update_of_ne (hne x' hx').2]
    rw [hrest, hrest, update_of_ne he.1.1, update_of_ne he.2.1, update_of_ne he.1.1, update_of_ne he.2.1, update_self, update_self,
      ← mul_add, bond_sum]
    ring

theorem incident_mem {v k : ℕ} {f : Bool} : ∀ {recs : List ((ℕ × ℕ) × ℕ)}, (k, f) ∈ incident v recs → ∃ x ∈ recs, x.2 = k
  | [], h => by simp [incident] at h
  | (e, k') :: recs, h => by
    simp only [incident] at h
    have key : (k, f) ∈ incident v recs → ∃ x ∈ (e, k') :: recs, x.2 = k := by
      intro h
      obtain ⟨x, hx, hk⟩ := incident_mem h
      exact ⟨x, by simp [hx], hk⟩
    split at h
    · rcases List.mem_cons.1 h with h | h
      · exact ⟨(e, k'), by simp, (Prod.mk.inj h).1.symm⟩
      · exact key h
    · split at h
      · rcases List.mem_cons.1 h with h | h
        · exact ⟨(e, k'), by simp, (Prod.mk.inj h).1.symm⟩
        · exact key h
      · exact key h

theorem mem_incident {x : (ℕ × ℕ) × ℕ} {recs : List ((ℕ × ℕ) × ℕ)} (hx : x ∈ recs) :
    x.2 ∈ (incident x.1.1 recs).map Prod.fst ∧ x.2 ∈ (incident x.1.2 recs).map Prod.fst := by
  obtain ⟨l1, l2, rfl⟩ := List.append_of_mem hx
  obtain ⟨e, k⟩ := x
  constructor
  · rw [incident_append]
    simp [incident]
  · rw [incident_append]
    simp only [incident, List.map_append, List.mem_append]
    right
    split <;> simp

/-- **The network of `prepare_graph_state` represents the graph state**: every node in the state `|+⟩`, and the sign of CZ for each edge. -/
theorem prepareGraphState_rep (o : Option (List ℕ)) {nodes : List ℕ} {edges : List (ℕ × ℕ)} (hnd : nodes.Nodup)
    (hE : ∀ e ∈ edges, e.1 ∈ nodes ∧ e.2 ∈ nodes ∧ e.1 ≠ e.2) :
    ∃ J, Represents ((TensorNet.empty o).prepareGraphState nodes edges) nodes.toFinset J
        (fun b => (1 / (Real.sqrt 2 : ℂ)) ^ nodes.length * (edges.map fun e => if b e.1 && b e.2 then (-1 : ℂ) else 1).prod) ∧
      Sep ((TensorNet.empty o).prepareGraphState nodes edges) nodes.toFinset ∧
      ((TensorNet.empty o).prepareGraphState nodes edges).outputs = o := by
  obtain ⟨recs, hg, hrecs⟩ := prepEdges_inv edges [] _ PrepInv.init fun e he => (hE e he).2.2
  rw [List.nil_append] at hg
  set g := edges.foldl TensorNet.prepEdge ⟨[], [], [], 0⟩ with hgdef
  have hN0 : NodesInv recs g o [] { TensorNet.empty o with dangling := g.dangling, fresh := g.fresh } :=
    ⟨rfl, rfl, le_refl _, fun _ _ => rfl, by simp, by simp⟩
  have hN := prepTensor_inv hg nodes [] _ (by simpa using hnd) hN0
  rw [List.nil_append] at hN
  have htn : nodes.foldl (prepTensor g.indDict g.vecDict) { TensorNet.empty o with dangling := g.dangling, fresh := g.fresh } =
    (TensorNet.empty o).prepareGraphState nodes edges := rfl
  rw [htn] at hN
  set tn := (TensorNet.empty o).prepareGraphState nodes edges with htndef
  have hrE : ∀ x ∈ recs, x.1.1 ∈ nodes ∧ x.1.2 ∈ nodes ∧ x.1.1 ≠ x.1.2 := by
    intro x hx
    exact hE x.1 (by rw [← hrecs]; exact List.mem_map_of_mem hx)
  have hdT : ∀ v, Touched recs v → g.dangling.get? v = some (tn.d v) ∧ tn.d v < g.fresh := by
    intro v hv
    obtain ⟨i, d1, -, -, d4⟩ := hg.dang v hv
    have : tn.d v = i := by unfold TensorNet.d; rw [hN.touched v hv, d1]; rfl
    rw [this]; exact ⟨d1, d4⟩
  have hdA : ∀ v ∈ nodes, ¬ Touched recs v → tn.dangling.get? v = some (tn.d v) ∧ g.fresh ≤ tn.d v ∧ tn.d v < tn.fresh := by
    intro v hv hvt
    obtain ⟨i, h1, h2, h3⟩ := hN.alone v hv hvt
    have : tn.d v = i := by unfold TensorNet.d; rw [h1]; rfl
    rw [this]; exact ⟨h1, h2, h3⟩
  have hfr := hN.fresh
  have hdang : ∀ v ∈ nodes, tn.dangling.get? v = some (tn.d v) := by
    intro v hv
    by_cases ht : Touched recs v
    · rw [hN.touched v ht]; exact (hdT v ht).1
    · exact (hdA v hv ht).1
  have hinj : ∀ v ∈ nodes, ∀ w ∈ nodes, tn.d v = tn.d w → v = w := by
    intro v hv w hw e
    by_cases htv : Touched recs v <;> by_cases htw : Touched recs w
    · exact hg.inj v w _ htv htw (hdT v htv).1 (by rw [e]; exact (hdT w htw).1)
    · have h1 := (hdT v htv).2
      have h2 := (hdA w hw htw).2.1
      omega
    · have h1 := (hdT w htw).2
      have h2 := (hdA v hv htv).2.1
      omega
    · exact hN.inj v hv w hw htv htw e
  have hnotJ : ∀ v ∈ nodes, tn.d v ∉ recs.map Prod.snd := by
    intro v hv
    by_cases ht : Touched recs v
    · exact hg.disj v _ ht (hdT v ht).1
    · intro hc
      obtain ⟨x, hx, he⟩ := List.mem_map.1 hc
      have h1 := hg.bond x hx
      have h2 := (hdA v hv ht).2.1
      omega
  have hinds : ∀ v, (nodeTensor g (tn.d v) v).inds = tn.d v :: (incident v recs).map Prod.fst := by
    intro v
    unfold nodeTensor
    by_cases ht : Touched recs v
    · obtain ⟨i, d1, d2, d3, d4⟩ := hg.dang v ht
      have : tn.d v = i := by unfold TensorNet.d; rw [hN.touched v ht, d1]; rfl
      rw [d2, this]; rfl
    · rw [hg.none v ht, incident_nil ht]; rfl
  have hinc : ∀ v k, k ∈ (incident v recs).map Prod.fst → k ∈ recs.map Prod.snd := by
    intro v k hk
    obtain ⟨⟨k', f⟩, h1, rfl⟩ := List.mem_map.1 hk
    obtain ⟨x, hx, he⟩ := incident_mem h1
    exact List.mem_map.2 ⟨x, hx, he⟩
  have hown : ∀ v ∈ nodes, ∀ w ∈ nodes, tn.d v ∈ (nodeTensor g (tn.d w) w).inds ↔ w = v := by
    intro v hv w hw
    rw [hinds, List.mem_cons]
    constructor
    · rintro (h | h)
      · exact (hinj v hv w hw h).symm
      · exact absurd (hinc w _ h) (hnotJ v hv)
    · rintro rfl; exact Or.inl rfl
  have hcount : ∀ i, indCount tn.tensors i = nodes.countP fun v => i ∈ (nodeTensor g (tn.d v) v).inds := by
    intro i
    unfold indCount
    rw [hN.tensors, List.countP_map]
    rfl
  refine ⟨(recs.map Prod.snd).toFinset, ?_, ?_, hN.outs⟩
  · refine ⟨fun v hv => hdang v (by simpa using hv), fun v hv w hw e => hinj v (by simpa using hv) w (by simpa using hw) e,
      fun v hv => by simpa only [List.mem_toFinset] using hnotJ v (by simpa using hv), fun i hi => ?_, fun v hv => ?_, fun i hi => ?_, fun v hv => ?_,
      fun i hi => ?_, fun a b hab => ?_⟩
    · obtain ⟨x, hx, rfl⟩ := List.mem_map.1 (List.mem_toFinset.1 hi)
      have := hg.bond x hx
      omega
    · rw [List.mem_toFinset] at hv
      by_cases ht : Touched recs v
      · have := (hdT v ht).2; omega
      · exact (hdA v hv ht).2.2
    · obtain ⟨t, ht, hit⟩ := mem_allInds.1 hi
      rw [hN.tensors] at ht
      obtain ⟨v, hv, rfl⟩ := List.mem_map.1 ht
      rw [hinds, List.mem_cons] at hit
      rcases hit with rfl | hit
      · exact Or.inr ⟨v, by simpa using hv, rfl⟩
      · exact Or.inl (List.mem_toFinset.2 (hinc v i hit))
    · rw [List.mem_toFinset] at hv
      rw [hcount]
      have : nodes.countP (fun w => decide (tn.d v ∈ (nodeTensor g (tn.d w) w).inds)) = nodes.count v := by
        unfold List.count
        refine List.countP_congr fun w hw => ?_
        simp only [decide_eq_true_eq, beq_iff_eq]
        exact hown v hv w hw
      rw [this, List.count_eq_one_of_mem hnd hv]
    · obtain ⟨x, hx, rfl⟩ := List.mem_map.1 (List.mem_toFinset.1 hi)
      obtain ⟨h1, h2, h3⟩ := hrE x hx
      obtain ⟨m1, m2⟩ := mem_incident hx
      rw [hcount]
      have hsub : [x.1.1, x.1.2].Subperm (nodes.filter fun v => decide (x.2 ∈ (nodeTensor g (tn.d v) v).inds)) := by
        refine List.subperm_of_subset (by simp [h3]) ?_
        intro v hv
        simp only [List.mem_cons, List.not_mem_nil, or_false] at hv
        rw [List.mem_filter, decide_eq_true_eq, hinds]
        rcases hv with rfl | rfl
        · exact ⟨h1, List.mem_cons_of_mem _ m1⟩
        · exact ⟨h2, List.mem_cons_of_mem _ m2⟩
      have := hsub.length_le
      rw [List.countP_eq_length_filter]
      simpa using this
    · have hval : ∀ a, netVal tn.tensors a = (recs.map fun x => bondFactor * vecState (a (tn.d x.1.1)) (decide (x.1.1 > x.1.2)) (a x.2) *
          (bondFactor * vecState (a (tn.d x.1.2)) (!decide (x.1.1 > x.1.2)) (a x.2))).prod * (1 / (Real.sqrt 2 : ℂ)) ^ nodes.length := by
        intro a
        unfold netVal
        rw [hN.tensors, List.map_map]
        have e1 : nodes.map ((fun t => t.val a) ∘ fun v => nodeTensor g (tn.d v) v) =
            nodes.map fun v => (1 / (Real.sqrt 2 : ℂ)) * ((incident v recs).map fun kf => bondFactor * vecState (a (tn.d v)) kf.2 (a kf.1)).prod :=
          List.map_congr_left fun v _ => nodeTensor_val hg (fun ht => (hdT v ht).1) a
        rw [e1, ← List.prod_toFinset _ hnd, Finset.prod_mul_distrib, Finset.prod_const, List.toFinset_card_of_nodup hnd,
          prod_incident nodes.toFinset (fun v kf => bondFactor * vecState (a (tn.d v)) kf.2 (a kf.1)) recs
            (fun x hx => by simpa using hrE x hx)]
        ring
      rw [sumOver_congr hval, sumOver_mul (g := fun _ => (1 / (Real.sqrt 2 : ℂ)) ^ nodes.length) (fun _ _ _ => rfl),
        sumOver_bonds tn.d recs hg.bonds (fun x hx => ⟨hnotJ _ (hrE x hx).1, hnotJ _ (hrE x hx).2.1⟩), mul_comm, ← hrecs, List.map_map]
      congr 2
      refine List.map_congr_left fun x hx => ?_
      have h1 := hab x.1.1 (by simpa using (hrE x hx).1)
      have h2 := hab x.1.2 (by simpa using (hrE x hx).2.1)
      simp only [h1, h2, Function.comp]
  · intro t ht v hv w hw hdv hdw
    rw [List.mem_toFinset] at hv hw
    rw [hN.tensors] at ht
    obtain ⟨u, hu, rfl⟩ := List.mem_map.1 ht
    rw [← (hown v hv u hu).1 hdv, (hown w hw u hu).1 hdw]

end Graphix
