import Verif.Model.FlowViews
import Verif.Props.FlowCheck
import Mathlib.Logic.Relation

/-!
# Property C75: `is_well_formed` answers, and the graph of well-formed corrections has no cycle
-/

namespace Graphix

open scoped Classical

/-- The only error that `x` can raise is `FlowError`. -/
def OnlyFlowError {α : Type} (x : Except PyErr α) : Prop := ∀ e, x = .error e → e = .flowError

namespace OnlyFlowError

theorem pure {α : Type} (a : α) : OnlyFlowError (.ok a : Except PyErr α) := fun e h => by cases h

theorem flow {α : Type} : OnlyFlowError (.error .flowError : Except PyErr α) := fun e h => by cases h; rfl

theorem bind {α β : Type} {x : Except PyErr α} {g : α → Except PyErr β} (h1 : OnlyFlowError x)
    (h2 : ∀ a, x = .ok a → OnlyFlowError (g a)) : OnlyFlowError (x >>= g) := by
  intro e h
  cases hx : x with
  | error e' =>
    rw [hx] at h
    cases h
    exact h1 _ hx
  | ok a =>
    rw [hx] at h
    exact h2 a hx e h

theorem guard (c : Prop) [Decidable c] : OnlyFlowError (if c then throw .flowError else Pure.pure PUnit.unit : Except PyErr PUnit) := by
  split
  · exact flow
  · exact pure _

theorem guardThen {β : Type} {c : Prop} [Decidable c] {g : PUnit → Except PyErr β} (h : OnlyFlowError (g PUnit.unit)) :
    OnlyFlowError (if c then (do let r ← (throw .flowError : Except PyErr PUnit); g r) else g PUnit.unit) := by
  split
  · exact flow
  · exact h

end OnlyFlowError

namespace Flow

theorem checkLabels_only (og : OpenGraph) (allowed : Label → Bool) (l : List ℕ) (h : ∀ i ∈ l, ∃ lab, og.HasLabel i lab) :
    OnlyFlowError (checkLabels og allowed l) := by
  induction l with
  | nil => exact .pure _
  | cons i l ih =>
    obtain ⟨lab, hl⟩ := h i (by simp)
    unfold checkLabels
    refine .bind (fun e he => by rw [(og.label_ok i lab).2 hl] at he; cases he) fun a _ => ?_
    split
    · exact ih fun j hj => h j (by simp [hj])
    · exact .flow

theorem yNodes_only (og : OpenGraph) (l : List ℕ) (h : ∀ i ∈ l, ∃ lab, og.HasLabel i lab) : OnlyFlowError (yNodes og l) := by
  induction l with
  | nil => exact .pure _
  | cons i l ih =>
    obtain ⟨lab, hl⟩ := h i (by simp)
    unfold yNodes
    refine .bind (fun e he => by rw [(og.label_ok i lab).2 hl] at he; cases he) fun a _ => ?_
    exact .bind (ih fun j hj => h j (by simp [hj])) fun b _ => .pure _

theorem checkGeneral_only (f : Flow) : OnlyFlowError f.checkGeneral := by
  unfold checkGeneral
  split
  · exact .flow
  · split
    · exact .flow
    · split
      · split
        · exact .flow
        · exact .pure _
      · dsimp only
        split
        · exact .flow
        · exact .pure _

/-- What `_check_flow_general_properties` gives for a node of a measured layer. -/
structure NodeOk (f : Flow) (u : ℕ) : Prop where
  corr : ∃ s, f.corr.get? u = some s ∧ s ⊆ f.og.nodes
  label : ∃ l, f.og.HasLabel u l

theorem nodeOk {f : Flow} (hv : f.og.postInit = .ok ()) (hk : f.corr.keys.Nodup) (hg : f.checkGeneral = .ok ()) {u : ℕ}
    (hu : u ∈ f.og.measurements.keys.toFinset) : f.NodeOk u := by
  obtain ⟨h1, h2, -⟩ := (checkGeneral_ok f hk).1 hg
  rw [(f.og.postInit_ok hv).1, Finset.mem_sdiff, List.mem_toFinset] at hu
  obtain ⟨s, hs⟩ := (h1 u).2 hu
  exact ⟨⟨s, hs, fun v hv => (h2 u s v hs hv).1⟩, (OpenGraph.exists_label hv u).2 hu⟩

theorem checkNodePauli_only {f : Flow} {ord : SetOrd} (hord : ord.Valid) {past pastY : Finset ℕ} {u : ℕ} (hu : f.NodeOk u)
    (hpast : ∀ v ∈ past, f.NodeOk v) : OnlyFlowError (f.checkNodePauli ord past pastY u) := by
  obtain ⟨⟨s, hs, hsub⟩, lab, hl⟩ := hu
  unfold checkNodePauli
  refine .bind (fun e he => by rw [(f.correctionSet_ok u s).2 hs] at he; cases he) fun a ha => ?_
  rw [(f.correctionSet_ok u s).2 hs] at ha
  cases ha
  refine .bind (fun e he => by rw [(f.og.label_ok u lab).2 hl] at he; cases he) fun lab' _ => ?_
  refine .bind (checkLabels_only _ _ _ fun i hi => (hpast i ?_).label) fun _ _ => ?_
  · have := (((hord 5 u ((s \ {u}) ∩ past)).2 _).1 hi : i ∈ (s \ {u}) ∩ past)
    exact (Finset.mem_inter.1 this).2
  refine .bind (fun e he => by rw [f.og.oddNeighbors_eq hsub] at he; cases he) fun odd _ => ?_
  refine .bind (checkLabels_only _ _ _ fun i hi => (hpast i ?_).label) fun _ _ => ?_
  · have := (((hord 6 u ((odd \ {u}) ∩ past)).2 _).1 hi : i ∈ (odd \ {u}) ∩ past)
    exact (Finset.mem_inter.1 this).2
  dsimp only
  exact .guardThen (.guard _)

theorem checkNodeG_only {f : Flow} {past : Finset ℕ} {u : ℕ} (hu : f.NodeOk u) (hp : ∃ p, f.og.HasLabel u (.plane p)) :
    OnlyFlowError (f.checkNodeG past u) := by
  obtain ⟨⟨s, hs, hsub⟩, -⟩ := hu
  obtain ⟨p, hp⟩ := hp
  unfold checkNodeG
  refine .bind (fun e he => by rw [(f.correctionSet_ok u s).2 hs] at he; cases he) fun a ha => ?_
  rw [(f.correctionSet_ok u s).2 hs] at ha
  cases ha
  dsimp only
  refine .guardThen ?_
  refine .bind (fun e he => by rw [f.og.oddNeighbors_eq hsub] at he; cases he) fun odd _ => ?_
  refine .guardThen ?_
  refine .bind (fun e he => by rw [(f.og.plane_ok u p).2 hp] at he; cases he) fun _ _ => .guard _

theorem checkNodeC_only {f : Flow} {past : Finset ℕ} {u : ℕ} (hu : f.NodeOk u) (hp : ∃ p, f.og.HasLabel u (.plane p)) :
    OnlyFlowError (f.checkNodeC past u) := by
  obtain ⟨⟨s, hs, hsub⟩, -⟩ := hu
  obtain ⟨p, hp⟩ := hp
  have hn : f.og.neighbors s = .ok (s.biUnion f.og.nbrs) := by unfold OpenGraph.neighbors; rw [if_pos hsub]
  unfold checkNodeC
  refine .bind (fun e he => by rw [(f.correctionSet_ok u s).2 hs] at he; cases he) fun a ha => ?_
  rw [(f.correctionSet_ok u s).2 hs] at ha
  cases ha
  dsimp only
  refine .guardThen ?_
  refine .bind (fun e he => by rw [(f.og.plane_ok u p).2 hp] at he; cases he) fun _ _ => ?_
  refine .guardThen ?_
  refine .bind (fun e he => by rw [hn] at he; cases he) fun _ _ => ?_
  exact .guardThen (.guardThen (.guard _))

theorem checkNodesPauli_only {f : Flow} {ord : SetOrd} (hord : ord.Valid) {past pastY : Finset ℕ} {l : List ℕ} (hl : ∀ u ∈ l, f.NodeOk u)
    (hpast : ∀ v ∈ past, f.NodeOk v) : OnlyFlowError (f.checkNodesPauli ord past pastY l) := by
  induction l with
  | nil => exact .pure _
  | cons u l ih =>
    exact .bind (checkNodePauli_only hord (hl u (by simp)) hpast) fun _ _ => ih fun v hv => hl v (by simp [hv])

theorem checkNodesG_only {f : Flow} {past : Finset ℕ} {l : List ℕ} (hl : ∀ u ∈ l, f.NodeOk u ∧ ∃ p, f.og.HasLabel u (.plane p)) :
    OnlyFlowError (f.checkNodesG past l) := by
  induction l with
  | nil => exact .pure _
  | cons u l ih =>
    exact .bind (checkNodeG_only (hl u (by simp)).1 (hl u (by simp)).2) fun _ _ => ih fun v hv => hl v (by simp [hv])

theorem checkNodesC_only {f : Flow} {past : Finset ℕ} {l : List ℕ} (hl : ∀ u ∈ l, f.NodeOk u ∧ ∃ p, f.og.HasLabel u (.plane p)) :
    OnlyFlowError (f.checkNodesC past l) := by
  induction l with
  | nil => exact .pure _
  | cons u l ih =>
    exact .bind (checkNodeC_only (hl u (by simp)).1 (hl u (by simp)).2) fun _ _ => ih fun v hv => hl v (by simp [hv])

theorem mem_ord {ord : SetOrd} (hord : ord.Valid) {site k : ℕ} {s : Finset ℕ} {v : ℕ} (h : v ∈ ord site k s) : v ∈ s :=
  ((hord site k s).2 _).1 h

theorem checkLayersPauli_only {f : Flow} {ord : SetOrd} (hord : ord.Valid) (hn : ∀ u ∈ f.og.measurements.keys.toFinset, f.NodeOk u)
    (ls : List (Finset ℕ)) : ∀ past pastY, (∀ v ∈ past, f.NodeOk v) → OnlyFlowError (f.checkLayersPauli ord ls past pastY) := by
  induction ls with
  | nil => intro past pastY _; exact .pure _
  | cons L ls ih =>
    intro past pastY hp
    unfold checkLayersPauli
    split
    · exact .flow
    · rename_i h
      push Not at h
      have hL : ∀ u ∈ L, f.NodeOk u := fun u hu => hn u (h.1 hu)
      have hp' : ∀ v ∈ past ∪ L, f.NodeOk v := fun v hv => (Finset.mem_union.1 hv).elim (hp v) (hL v)
      refine .bind (yNodes_only _ _ fun i hi => (hL i (mem_ord hord hi)).label) fun ys _ => ?_
      exact .bind (checkNodesPauli_only hord (fun u hu => hL u (mem_ord hord hu)) hp') fun _ _ => ih _ _ hp'

theorem checkLayersG_only {f : Flow} {ord : SetOrd} (hord : ord.Valid)
    (hn : ∀ u ∈ f.og.measurements.keys.toFinset, f.NodeOk u ∧ ∃ p, f.og.HasLabel u (.plane p)) (ls : List (Finset ℕ)) :
    ∀ past, OnlyFlowError (f.checkLayersG ord ls past) := by
  induction ls with
  | nil => intro past; exact .pure _
  | cons L ls ih =>
    intro past
    unfold checkLayersG
    split
    · exact .flow
    · rename_i h
      push Not at h
      exact .bind (checkNodesG_only fun u hu => hn u (h.1 (mem_ord hord hu))) fun _ _ => ih _

theorem checkLayersC_only {f : Flow} {ord : SetOrd} (hord : ord.Valid)
    (hn : ∀ u ∈ f.og.measurements.keys.toFinset, f.NodeOk u ∧ ∃ p, f.og.HasLabel u (.plane p)) (ls : List (Finset ℕ)) :
    ∀ past, OnlyFlowError (f.checkLayersC ord ls past) := by
  induction ls with
  | nil => intro past; exact .pure _
  | cons L ls ih =>
    intro past
    unfold checkLayersC
    split
    · exact .flow
    · rename_i h
      push Not at h
      exact .bind (checkNodesC_only fun u hu => hn u (h.1 (mem_ord hord hu))) fun _ _ => ih _

end Flow

theorem catchFlowError_eq {check : Except PyErr Unit} (h : OnlyFlowError check) {P : Prop} (hP : check = .ok () ↔ P) :
    catchFlowError check = .ok (decide P) := by
  cases hc : check with
  | ok u =>
    rw [show decide P = true from decide_eq_true (hP.1 hc)]
    rfl
  | error e =>
    have hnot : ¬ P := fun hp => by have := hP.2 hp; rw [hc] at this; cases this
    rw [show decide P = false from decide_eq_false hnot, h e hc]
    rfl

/-- The measurements of the open graph are given by planes (the type bound of `GFlow` and `CausalFlow`). -/
def OpenGraph.AllPlanes (og : OpenGraph) : Prop := ∀ u m, og.measurements.get? u = some m → ∃ p, m.toPlaneOrAxis = .plane p

theorem OpenGraph.AllPlanes.label {og : OpenGraph} (h : og.AllPlanes) {u : ℕ} (hu : u ∈ og.measurements.keys.toFinset) :
    ∃ p, og.HasLabel u (.plane p) := by
  rw [List.mem_toFinset, ← PyDict.get?_isSome_iff, Option.isSome_iff_exists] at hu
  obtain ⟨m, hm⟩ := hu
  obtain ⟨p, hp⟩ := h u m hm
  exact ⟨p, m, hm, hp⟩

/-- **C75** `PauliFlow.is_well_formed` answers for every correction function and every layers (it never raises), and answers whether they are a Pauli
flow. -/
theorem C75_pauliflow (f : Flow) (hv : f.og.Valid) (hk : f.corr.keys.Nodup) (ord : SetOrd) (hord : ord.Valid) :
    f.isWellFormedPauli ord = .ok (decide (IsPauliFlow f)) := by
  refine catchFlowError_eq ?_ (C29_pauliflow f hv hk ord hord)
  unfold Flow.checkPauli
  refine .bind f.checkGeneral_only fun _ hg => ?_
  exact .bind (Flow.checkLayersPauli_only hord (fun u hu => Flow.nodeOk hv.post hk hg hu) _ _ _ (by simp)) fun _ _ => .guard _

/-- **C75** `GFlow.is_well_formed`, on an open graph measured in planes. -/
theorem C75_gflow (f : Flow) (hv : f.og.Valid) (hk : f.corr.keys.Nodup) (hp : f.og.AllPlanes) (ord : SetOrd) (hord : ord.Valid) :
    f.isWellFormedG ord = .ok (decide (IsGFlow f)) := by
  refine catchFlowError_eq ?_ (C29_gflow f hv hk ord hord)
  unfold Flow.checkG
  refine .bind f.checkGeneral_only fun _ hg => ?_
  exact .bind (Flow.checkLayersG_only hord (fun u hu => ⟨Flow.nodeOk hv.post hk hg hu, hp.label hu⟩) _ _) fun _ _ => .guard _

/-- **C75** `CausalFlow.is_well_formed`, on an open graph measured in planes. -/
theorem C75_causalflow (f : Flow) (hv : f.og.Valid) (hk : f.corr.keys.Nodup) (hp : f.og.AllPlanes) (ord : SetOrd) (hord : ord.Valid) :
    f.isWellFormedC ord = .ok (decide (IsCausalFlow f)) := by
  refine catchFlowError_eq ?_ (C29_causalflow f hv hk ord hord)
  unfold Flow.checkC
  refine .bind f.checkGeneral_only fun _ hg => ?_
  exact .bind (Flow.checkLayersC_only hord (fun u hu => ⟨Flow.nodeOk hv.post hk hg hu, hp.label hu⟩) _ _) fun _ _ => .guard _

/-! ### The graph of the corrections -/

/-- The correction conditioned on the outcome of `i` is applied to `j`. -/
def IsCorrected (xz : XZCorrections) (i j : ℕ) : Prop :=
  (∃ s, xz.x.get? i = some s ∧ j ∈ s) ∨ ∃ s, xz.z.get? i = some s ∧ j ∈ s

/-- **C75** The edges of `to_dag` are the corrections, and its nodes those that are involved in a correction. -/
theorem C75_dag (xz : XZCorrections) (hx : xz.x.keys.Nodup) (hz : xz.z.keys.Nodup) (enum : Finset ℕ → List ℕ)
    (henum : ∀ s, (enum s).toFinset = s) :
    (∀ i j, (i, j) ∈ (xz.toDag enum).edges ↔ IsCorrected xz i j) ∧
    ∀ i, i ∈ (xz.toDag enum).nodes ↔ ∃ j, IsCorrected xz i j ∨ IsCorrected xz j i := by
  have hmem : ∀ s v, v ∈ enum s ↔ v ∈ s := fun s v => by rw [← List.mem_toFinset, henum]
  have hget : ∀ (d : PyDict ℕ (Finset ℕ)), d.keys.Nodup → ∀ i s, (i, s) ∈ d ↔ d.get? i = some s :=
    fun d hd i s => ⟨PyDict.get?_of_mem hd, PyDict.mem_of_get?⟩
  have key : ∀ i j, (i, j) ∈ xz.relations enum ↔ IsCorrected xz i j := by
    intro i j
    unfold XZCorrections.relations IsCorrected
    simp only [List.flatMap_cons, List.flatMap_nil, List.append_nil, List.mem_append, List.mem_flatMap, List.mem_map, Prod.mk.injEq, hmem]
    refine or_congr ?_ ?_
    · constructor
      · rintro ⟨⟨k, s⟩, h1, v, h2, rfl, rfl⟩
        exact ⟨s, (hget _ hx _ _).1 h1, h2⟩
      · rintro ⟨s, h1, h2⟩
        exact ⟨(i, s), (hget _ hx _ _).2 h1, j, h2, rfl, rfl⟩
    · constructor
      · rintro ⟨⟨k, s⟩, h1, v, h2, rfl, rfl⟩
        exact ⟨s, (hget _ hz _ _).1 h1, h2⟩
      · rintro ⟨s, h1, h2⟩
        exact ⟨(i, s), (hget _ hz _ _).2 h1, j, h2, rfl, rfl⟩
  refine ⟨fun i j => ?_, fun i => ?_⟩
  · rw [← key]
    simp [XZCorrections.toDag]
  · simp only [XZCorrections.toDag, List.mem_toFinset, List.mem_flatMap, Prod.exists, List.mem_cons, List.not_mem_nil, or_false]
    constructor
    · rintro ⟨a, b, h, rfl | rfl⟩
      · exact ⟨b, Or.inl ((key _ _).1 h)⟩
      · exact ⟨a, Or.inr ((key _ _).1 h)⟩
    · rintro ⟨j, h | h⟩
      · exact ⟨i, j, (key _ _).2 h, Or.inl rfl⟩
      · exact ⟨j, i, (key _ _).2 h, Or.inr rfl⟩

/-- A node that precedes itself does not exist, even through other nodes. -/
theorem before_trans_of_disjoint {layers : List (Finset ℕ)} (hd : layers.Pairwise Disjoint) {u v w : ℕ} (h1 : Before layers u v) (h2 : Before layers v w) :
    Before layers u w := by
  obtain ⟨i, j, K, L, hi, hj, hlt, hu, hv⟩ := h1
  obtain ⟨i', j', K', L', hi', hj', hlt', hv', hw⟩ := h2
  have := index_unique hd hj hi' hv hv'
  exact ⟨i, j', K, L', hi, hj', by omega, hu, hw⟩

theorem before_irrefl_of_disjoint {layers : List (Finset ℕ)} (hd : layers.Pairwise Disjoint) (u : ℕ) : ¬ Before layers u u := by
  rintro ⟨i, j, K, L, hi, hj, hlt, hu, hv⟩
  have := index_unique hd hi hj hu hv
  omega

/-- **C75** When `check_well_formed` accepts the corrections, `to_dag` is acyclic: no sequence of edges leads from a node to itself. -/
theorem C75_acyclic (xz : XZCorrections) (hv : xz.og.Valid) (hx : xz.x.keys.Nodup) (hz : xz.z.keys.Nodup) (ord : SetOrd) (hord : ord.Valid)
    (h : xz.checkWellFormed ord = .ok ()) (enum : Finset ℕ → List ℕ) (henum : ∀ s, (enum s).toFinset = s) (i : ℕ) :
    ¬ Relation.TransGen (fun a b => (a, b) ∈ (xz.toDag enum).edges) i i := by
  have hc := (C29_xzcorrections xz hv ord hord).1 h
  have hdag := (C75_dag xz hx hz enum henum).1
  have hout : ∀ a b, IsCorrected xz a b → a ∈ xz.og.nodes := by
    rintro a b (⟨s, hs, -⟩ | ⟨s, hs, -⟩)
    · exact (hc.domain a (Or.inl ⟨s, hs⟩)).1
    · exact (hc.domain a (Or.inr ⟨s, hs⟩)).1
  have hstep : ∀ a b, IsCorrected xz a b → b ∈ xz.og.nodes → Before xz.layers a b := by
    rintro a b (⟨s, hs, hb⟩ | ⟨s, hs, hb⟩) hn
    · exact hc.x_later a s b hs hb hn
    · exact hc.z_later a s b hs hb hn
  have hpath : ∀ b, Relation.TransGen (fun a b => (a, b) ∈ (xz.toDag enum).edges) i b → b ∈ xz.og.nodes → Before xz.layers i b := by
    intro b hb
    induction hb with
    | single h1 => exact fun hn => hstep _ _ ((hdag _ _).1 h1) hn
    | tail _ h2 ih =>
      intro hn
      have hab := (hdag _ _).1 h2
      exact before_trans_of_disjoint hc.layers.disjoint (ih (hout _ _ hab)) (hstep _ _ hab hn)
  intro hcyc
  have hi : i ∈ xz.og.nodes := by
    rcases Relation.TransGen.head'_iff.1 hcyc with ⟨c, h1, -⟩
    exact hout _ _ ((hdag _ _).1 h1)
  exact before_irrefl_of_disjoint hc.layers.disjoint i (hpath i hcyc hi)

/-- Non-vacuity: an open graph with Pauli measurements and a Pauli flow. -/
example : exFlowP.isWellFormedPauli exOrd = .ok true := by
  rw [C75_pauliflow exFlowP (exOg_valid _) (by decide) exOrd exOrd_valid, decide_eq_true exFlowP_pauli]

/-- Non-vacuity: layers in the wrong order. -/
example : ({ exFlowP with layers := [{3}, {1, 2}, {0}] } : Flow).isWellFormedPauli exOrd =
    .ok (decide (IsPauliFlow { exFlowP with layers := [{3}, {1, 2}, {0}] })) :=
  C75_pauliflow _ (exOg_valid _) (by decide) exOrd exOrd_valid

/-- Non-vacuity: measurements in planes. -/
example : ∃ b, (exFlow exLabels).isWellFormedC exOrd = .ok b := by
  refine ⟨_, C75_causalflow (exFlow exLabels) (exOg_valid _) (by decide) ?_ exOrd exOrd_valid⟩
  intro u m h
  have : m.toPlaneOrAxis = .plane .XY := by
    have hm := PyDict.mem_of_get? h
    simp only [exFlow, exOg, exLabels, List.mem_cons, Prod.mk.injEq, List.not_mem_nil, or_false] at hm
    rcases hm with ⟨-, rfl⟩ | ⟨-, rfl⟩ | ⟨-, rfl⟩ <;> rfl
  exact ⟨_, this⟩

/-- Non-vacuity: the corrections of a path; its graph has five edges. -/
noncomputable def exCorr : XZCorrections :=
  ⟨exOg exLabels, [(0, {1}), (1, {2}), (2, {3})], [(0, {2}), (1, {3})], [{3}, {2}, {1}, {0}]⟩

example : exCorr.checkWellFormed exOrd = .ok () ∧ (0, 2) ∈ (exCorr.toDag (fun s => s.sort (· ≤ ·))).edges ∧
    ∀ i, ¬ Relation.TransGen (fun a b => (a, b) ∈ (exCorr.toDag (fun s => s.sort (· ≤ ·))).edges) i i := by
  have h : exCorr.checkWellFormed exOrd = .ok () := by with_unfolding_all rfl
  have hs : ∀ s : Finset ℕ, (s.sort (· ≤ ·)).toFinset = s := fun s => by simp
  refine ⟨h, ((C75_dag exCorr (by decide) (by decide) _ hs).1 0 2).2 (Or.inr ⟨{2}, rfl, by simp⟩), fun i => ?_⟩
  exact C75_acyclic exCorr (exOg_valid _) (by decide) (by decide) exOrd exOrd_valid h _ hs i

end Graphix
