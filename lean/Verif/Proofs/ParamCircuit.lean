import Verif.Props.ParamStd
import Verif.Model.ParamCircuit

/-!
# Circuits with parameters: transpiling commutes with giving values to the parameters
-/

namespace Graphix

open scoped symmDiff

/-- The instruction when the parameters have the values `v`. -/
noncomputable def PInstr.at (v : ℕ → ℝ) : PInstr → Instr
  | CCX c0 c1 t => .CCX c0 c1 t
  | RZZ c t θ => .RZZ c t (θ.val v)
  | CNOT c t => .CNOT c t
  | SWAP a b => .SWAP a b
  | CZ a b => .CZ a b
  | H t => .H t
  | S t => .S t
  | X t => .X t
  | Y t => .Y t
  | Z t => .Z t
  | I t => .I t
  | M t a => .M t a
  | RX t θ => .RX t (θ.val v)
  | RY t θ => .RY t (θ.val v)
  | RZ t θ => .RZ t (θ.val v)
  | J t θ => .J t (θ.val v)

/-- The circuit when the parameters have the values `v`. -/
noncomputable def PCircuit.at (c : PCircuit) (v : ℕ → ℝ) : Circuit := ⟨c.width, c.instrs.map (PInstr.at v), c.active⟩

/-- Both results are errors of the same kind, or both are values related by `R`. -/
def ExRel {α β : Type} (R : α → β → Prop) : Except PyErr α → Except PyErr β → Prop
  | .ok a, .ok b => R a b
  | .error e, .error e' => e = e'
  | _, _ => False

namespace ExRel

variable {α β γ δ : Type} {R : α → β → Prop} {S : γ → δ → Prop}

theorem bind {x : Except PyErr α} {y : Except PyErr β} {f : α → Except PyErr γ} {g : β → Except PyErr δ}
    (h : ExRel R x y) (hf : ∀ a b, R a b → ExRel S (f a) (g b)) : ExRel S (x >>= f) (y >>= g) := by
  cases x with
  | error e =>
    cases y with
    | error e' => exact h
    | ok b => exact h.elim
  | ok a =>
    cases y with
    | error e' => exact h.elim
    | ok b => exact hf a b h

theorem imp {R' : α → β → Prop} {x : Except PyErr α} {y : Except PyErr β} (h : ExRel R x y) (hR : ∀ a b, R a b → R' a b) :
    ExRel R' x y := by
  cases x <;> cases y <;> first | exact h | exact hR _ _ h

theorem rfl' {x : Except PyErr α} : ExRel (fun a b => a = b) x x := by
  cases x <;> exact rfl

theorem of_eq {x y : Except PyErr α} (h : x = y) : ExRel (fun a b => a = b) x y := h ▸ rfl'

theorem foldlM {ι κ : Type} {T : ι → κ → Prop} {f : α → ι → Except PyErr α} {g : β → κ → Except PyErr β} {l : List ι} {l' : List κ}
    (hl : List.Forall₂ T l l') (hf : ∀ a b i j, R a b → T i j → ExRel R (f a i) (g b j)) :
    ∀ {a b}, R a b → ExRel R (l.foldlM f a) (l'.foldlM g b) := by
  induction hl with
  | nil => intro a b h; exact h
  | cons h1 _ ih =>
    intro a b h
    rw [List.foldlM_cons, List.foldlM_cons]
    exact (hf _ _ _ _ h h1).bind fun a' b' h' => ih h'

theorem ok_left {x : Except PyErr α} {y : Except PyErr β} (h : ExRel R x y) {a : α} (ha : x = .ok a) : ∃ b, y = .ok b ∧ R a b := by
  subst ha
  cases y with
  | error e => exact h.elim
  | ok b => exact ⟨b, rfl, h⟩

theorem ok_right {x : Except PyErr α} {y : Except PyErr β} (h : ExRel R x y) {b : β} (hb : y = .ok b) : ∃ a, x = .ok a ∧ R a b := by
  subst hb
  cases x with
  | error e => exact h.elim
  | ok a => exact ⟨a, rfl, h⟩

theorem error_left {x : Except PyErr α} {y : Except PyErr β} (h : ExRel R x y) {e : PyErr} (he : x = .error e) : y = .error e := by
  subst he
  cases y with
  | error e' => exact congrArg _ (show e = e' from h).symm
  | ok b => exact h.elim

end ExRel

theorem toJcz_at (v : ℕ → ℝ) (l : List PInstr) :
    (PInstr.toJcz l).map (PInstr.at v) = instructionsToJcz (l.map (PInstr.at v)) := by
  induction l using PInstr.toJcz.induct with
  | case1 => simp [PInstr.toJcz, instructionsToJcz]
  | _ =>
    simp only [PInstr.toJcz, instructionsToJcz, PInstr.at, PInstr.decomposeRz, PInstr.decomposeRx, PInstr.decomposeRy,
      PInstr.decomposeY, PInstr.decomposeCcx, PInstr.decomposeRzz, PInstr.decomposeCnot, PInstr.decomposeSwap,
      decomposeRz, decomposeRx, decomposeRy, decomposeY, decomposeCcx, decomposeRzz, decomposeCnot, decomposeSwap, Expr.val,
      List.map_append, List.map_cons, List.map_nil, List.cons_append, List.nil_append] at *
    try simp_all only

theorem PInstr.visit_at (v : ℕ → ℝ) (f : ℕ → Except PyErr ℕ) (i : PInstr) :
    ExRel (fun a b => b = a.at v) (i.visit f) ((i.at v).visit f) := by
  cases i <;> simp only [PInstr.visit, PInstr.at, Instr.visit] <;>
    first
    | exact ExRel.rfl'.bind fun a b h => ExRel.rfl'.bind fun a' b' h' => ExRel.rfl'.bind fun a'' b'' h'' => by subst h h' h''; exact rfl
    | exact ExRel.rfl'.bind fun a b h => ExRel.rfl'.bind fun a' b' h' => by subst h h'; exact rfl
    | exact ExRel.rfl'.bind fun a b h => by subst h; exact rfl

theorem PCircuit.instrOk_at (v : ℕ → ℝ) (s : Finset ℕ) (i : PInstr) : Circuit.instrOk s (i.at v) = PCircuit.instrOk s i := by
  cases i <;> rfl

theorem PCircuit.add_at (v : ℕ → ℝ) (c : PCircuit) (i : PInstr) :
    ExRel (fun a b => b = a.at v) (c.add i) ((c.at v).add (i.at v)) := by
  simp only [PCircuit.add, Circuit.add]
  rw [show (c.at v).active = c.active from rfl, PCircuit.instrOk_at]
  by_cases h : PCircuit.instrOk c.active i = true
  · rw [if_pos h, if_pos h]
    cases i <;> simp [PInstr.at, ExRel, PCircuit.at]
  · rw [if_neg h, if_neg h]; exact rfl

theorem PCircuit.extend_at (v : ℕ → ℝ) (l : List PInstr) : ∀ (c : PCircuit),
    ExRel (fun a b => b = a.at v) (c.extend l) ((c.at v).extend (l.map (PInstr.at v))) := by
  induction l with
  | nil => intro c; exact rfl
  | cons i l ih =>
    intro c
    exact (PCircuit.add_at v c i).bind fun a b h => by subst h; exact ih a

theorem PCircuit.swaps_at (v : ℕ → ℝ) (l : List PInstr) : ∀ (c : PCircuit) (outputs : List OutputIndex) (k : ℕ),
    ExRel (fun a b => b = (a.1.at v, a.2)) (PCircuit.transpileSwapsLoop l c outputs k)
      (Graphix.transpileSwapsLoop (l.map (PInstr.at v)) (c.at v) outputs k) := by
  induction l with
  | nil => intro c outputs k; exact rfl
  | cons i l ih =>
    intro c outputs k
    cases i <;> rw [List.map_cons] <;> simp only [PInstr.at, PCircuit.transpileSwapsLoop, Graphix.transpileSwapsLoop]
    case SWAP a b =>
      refine ExRel.rfl'.bind fun _ _ _ => ExRel.rfl'.bind fun _ _ _ => ?_
      cases outputs[a]? with
      | none => exact rfl
      | some x =>
        cases outputs[b]? with
        | none => exact rfl
        | some y => exact ih _ _ _
    case M t a =>
      exact (PInstr.visit_at v _ (.M t a)).bind fun a b h => by
        subst h
        exact (PCircuit.add_at v c a).bind fun a b h => by subst h; exact ih _ _ _
    all_goals
      first
      | exact (PInstr.visit_at v _ (.RZZ _ _ _)).bind fun a b h => by
          subst h
          exact (PCircuit.add_at v c a).bind fun a b h => by subst h; exact ih _ _ _
      | exact (PInstr.visit_at v _ (.RX _ _)).bind fun a b h => by
          subst h
          exact (PCircuit.add_at v c a).bind fun a b h => by subst h; exact ih _ _ _
      | exact (PInstr.visit_at v _ (.RY _ _)).bind fun a b h => by
          subst h
          exact (PCircuit.add_at v c a).bind fun a b h => by subst h; exact ih _ _ _
      | exact (PInstr.visit_at v _ (.RZ _ _)).bind fun a b h => by
          subst h
          exact (PCircuit.add_at v c a).bind fun a b h => by subst h; exact ih _ _ _
      | exact (PInstr.visit_at v _ (.J _ _)).bind fun a b h => by
          subst h
          exact (PCircuit.add_at v c a).bind fun a b h => by subst h; exact ih _ _ _
      | exact (PInstr.visit_at v _ (.CCX _ _ _)).bind fun a b h => by
          subst h
          exact (PCircuit.add_at v c a).bind fun a b h => by subst h; exact ih _ _ _
      | exact (PInstr.visit_at v _ (.CNOT _ _)).bind fun a b h => by
          subst h
          exact (PCircuit.add_at v c a).bind fun a b h => by subst h; exact ih _ _ _
      | exact (PInstr.visit_at v _ (.CZ _ _)).bind fun a b h => by
          subst h
          exact (PCircuit.add_at v c a).bind fun a b h => by subst h; exact ih _ _ _
      | exact (PInstr.visit_at v _ (.H _)).bind fun a b h => by
          subst h
          exact (PCircuit.add_at v c a).bind fun a b h => by subst h; exact ih _ _ _
      | exact (PInstr.visit_at v _ (.S _)).bind fun a b h => by
          subst h
          exact (PCircuit.add_at v c a).bind fun a b h => by subst h; exact ih _ _ _
      | exact (PInstr.visit_at v _ (.X _)).bind fun a b h => by
          subst h
          exact (PCircuit.add_at v c a).bind fun a b h => by subst h; exact ih _ _ _
      | exact (PInstr.visit_at v _ (.Y _)).bind fun a b h => by
          subst h
          exact (PCircuit.add_at v c a).bind fun a b h => by subst h; exact ih _ _ _
      | exact (PInstr.visit_at v _ (.Z _)).bind fun a b h => by
          subst h
          exact (PCircuit.add_at v c a).bind fun a b h => by subst h; exact ih _ _ _
      | exact (PInstr.visit_at v _ (.I _)).bind fun a b h => by
          subst h
          exact (PCircuit.add_at v c a).bind fun a b h => by subst h; exact ih _ _ _

/-- The dictionaries have the same keys, and measurements with the same observables. -/
def SameDict (v : ℕ → ℝ) : PyDict ℕ PMeasurement → PyDict ℕ Measurement → Prop :=
  List.Forall₂ fun a b => a.1 = b.1 ∧ observable (a.2.at v) = observable b.2

theorem SameDict.set {v : ℕ → ℝ} {d : PyDict ℕ PMeasurement} {d' : PyDict ℕ Measurement} (h : SameDict v d d') (k : ℕ)
    {m : PMeasurement} {m' : Measurement} (hm : observable (m.at v) = observable m') :
    SameDict v (PyDict.set d k m) (PyDict.set d' k m') := by
  induction h with
  | nil => exact .cons ⟨rfl, hm⟩ .nil
  | @cons a b l l' h1 h2 ih =>
    obtain ⟨a1, a2⟩ := a
    obtain ⟨b1, b2⟩ := b
    obtain ⟨e, ho⟩ := h1
    dsimp only at e ho
    subst e
    simp only [PyDict.set]
    split_ifs
    · exact .cons ⟨rfl, hm⟩ h2
    · exact .cons ⟨rfl, ho⟩ ih

theorem SameDict.get {v : ℕ → ℝ} {d : PyDict ℕ PMeasurement} {d' : PyDict ℕ Measurement} (h : SameDict v d d') (k : ℕ) :
    (PyDict.get? d k = none ∧ PyDict.get? d' k = none) ∨
      ∃ m m', PyDict.get? d k = some m ∧ PyDict.get? d' k = some m' ∧ observable (m.at v) = observable m' := by
  induction h with
  | nil => exact .inl ⟨rfl, rfl⟩
  | @cons a b l l' h1 h2 ih =>
    obtain ⟨a1, a2⟩ := a
    obtain ⟨b1, b2⟩ := b
    obtain ⟨e, ho⟩ := h1
    dsimp only at e ho
    subst e
    simp only [PyDict.get?]
    split_ifs
    · exact .inr ⟨_, _, rfl, rfl, ho⟩
    · exact ih

theorem SameDict.keys {v : ℕ → ℝ} {d : PyDict ℕ PMeasurement} {d' : PyDict ℕ Measurement} (h : SameDict v d d') :
    d'.keys = d.keys := by
  induction h with
  | nil => rfl
  | cons h1 _ ih => simp only [PyDict.keys, List.map_cons, h1.1] at ih ⊢; rw [ih]

/-- The variables of `transpile_to_causalflow` agree. -/
structure PJczState.Agree (v : ℕ → ℝ) (p : PJczState) (s : JczState) : Prop where
  indices : s.indices = p.indices
  nNodes : s.nNodes = p.nNodes
  measurements : SameDict v p.measurements s.measurements
  classical : s.classical = p.classical
  nodes : s.nodes = p.nodes
  edges : s.edges = p.edges
  x : s.x = p.x

theorem observable_normalizeExpr (v : ℕ → ℝ) (θ : Expr) :
    observable ((PMeasurement.bloch (normalizeExpr θ.neg) .XY).at v) = observable (.bloch ⟨normalizeAngle (-θ.val v), .XY⟩) := by
  have hper : ∀ x : ℝ, observable (.bloch ⟨normalizeAngle x, .XY⟩) = observable (.bloch ⟨x, .XY⟩) := by
    intro x
    simp only [observable, planeObservable, normalizeAngle]
    rw [show (x - 2 * ⌊x / 2⌋) * Real.pi = x * Real.pi - (⌊x / 2⌋ : ℤ) * (2 * Real.pi) by ring,
      Real.cos_sub_int_mul_two_pi, Real.sin_sub_int_mul_two_pi]
  cases θ with
  | num r => rfl
  | aff a x b =>
    rw [hper]
    simp only [Expr.neg, Expr.scaleNonNull, normalizeExpr, PMeasurement.at, Expr.val]
    rw [show -1 * a * v x + -1 * b = -(a * v x + b) by ring]

theorem PJczState.index_at {v : ℕ → ℝ} {p : PJczState} {s : JczState} (h : p.Agree v s) (q : ℕ) : s.index q = p.index q := by
  simp only [PJczState.index, JczState.index, h.indices]
  rcases p.indices[q]? with _ | _ | _ <;> rfl

theorem PJczState.step_at {v : ℕ → ℝ} {p : PJczState} {s : JczState} (h : p.Agree v s) (i : PInstr) :
    ExRel (PJczState.Agree v) (p.step i) (s.step (i.at v)) := by
  have hi := PJczState.index_at h
  cases i with
  | M t a =>
    refine (ExRel.of_eq (hi t).symm).bind fun x y e => ?_
    subst e
    exact ⟨by rw [h.indices], h.nNodes, h.measurements, by rw [h.classical], h.nodes, h.edges, h.x⟩
  | J t θ =>
    refine (ExRel.of_eq (hi t).symm).bind fun x y e => ?_
    subst e
    exact ⟨by rw [h.indices, h.nNodes], by rw [h.nNodes], h.measurements.set _ (observable_normalizeExpr v θ), h.classical, by rw [h.nodes, h.nNodes],
      by rw [h.edges, h.nNodes], by rw [h.x, h.nNodes]⟩
  | CZ a b =>
    refine (ExRel.of_eq (hi a).symm).bind fun x y e => (ExRel.of_eq (hi b).symm).bind fun x' y' e' => ?_
    subst e e'
    simp only [h.edges]
    split_ifs
    · exact ⟨h.indices, h.nNodes, h.measurements, h.classical, h.nodes, rfl, h.x⟩
    · exact ⟨h.indices, h.nNodes, h.measurements, h.classical, by rw [h.nodes], rfl, h.x⟩
  | _ => exact rfl

theorem PJczState.run_at {v : ℕ → ℝ} (l : List PInstr) : ∀ {p : PJczState} {s : JczState}, p.Agree v s →
    ExRel (PJczState.Agree v) (p.run l) (s.run (l.map (PInstr.at v))) := by
  induction l with
  | nil => intro p s h; exact h
  | cons i l ih =>
    intro p s h
    exact (PJczState.step_at h i).bind fun a b h' => ih h'

/-- The open graphs agree. -/
def POpenGraph.Agree (v : ℕ → ℝ) (p : POpenGraph) (og : OpenGraph) : Prop :=
  og = { p.skeleton with measurements := og.measurements } ∧ SameDict v p.measurements og.measurements

theorem PJczState.openGraph_at {v : ℕ → ℝ} {p : PJczState} {s : JczState} (h : p.Agree v s) (w : ℕ)
    (eord : List (ℕ × ℕ) → List (ℕ × ℕ)) : (p.openGraph w eord).Agree v (s.openGraph w eord) := by
  refine ⟨?_, h.measurements⟩
  simp only [JczState.openGraph, PJczState.openGraph, POpenGraph.skeleton, h.nodes, h.edges, h.indices, h.classical]

theorem neighbors_meas (og : OpenGraph) (m : PyDict ℕ Measurement) (s : Finset ℕ) :
    OpenGraph.neighbors { og with measurements := m } s = og.neighbors s := rfl

theorem zCorrections_meas (og : OpenGraph) (m : PyDict ℕ Measurement) (x : PyDict ℕ (Finset ℕ)) : ∀ d,
    zCorrections { og with measurements := m } x d = zCorrections og x d := by
  induction x with
  | nil => intro d; rfl
  | cons a l ih =>
    intro d
    obtain ⟨n, c⟩ := a
    simp only [zCorrections, neighbors_meas]
    cases og.neighbors c with
    | error e => rfl
    | ok nb => exact ih _

theorem layers_meas (og : OpenGraph) (m : PyDict ℕ Measurement) (ord : SetOrd) (x z : PyDict ℕ (Finset ℕ)) :
    correctionsToPartialOrderLayers { og with measurements := m } ord x z = correctionsToPartialOrderLayers og ord x z := rfl

theorem cCorrections_meas (og : OpenGraph) (m : PyDict ℕ Measurement) (x : PyDict ℕ (Finset ℕ)) : ∀ d,
    Flow.cCorrections { og with measurements := m } x d = Flow.cCorrections og x d := by
  induction x with
  | nil => intro d; rfl
  | cons a l ih =>
    intro d
    obtain ⟨n, c⟩ := a
    simp only [Flow.cCorrections, neighbors_meas]
    cases og.neighbors c with
    | error e => rfl
    | ok nb => exact ih _

theorem POpenGraph.Agree.postInit {v : ℕ → ℝ} {p : POpenGraph} {og : OpenGraph} (h : p.Agree v og) :
    og.postInit = p.skeleton.postInit := by
  have hk : og.measurements.keys = p.skeleton.measurements.keys := by
    rw [h.2.keys]
    simp [POpenGraph.skeleton, PyDict.keys, Function.comp]
  have e := h.1
  generalize og.measurements = m at e hk
  subst e
  simp only [OpenGraph.postInit]
  rw [hk]

/-- The causal flows agree. -/
structure PTranspiledFlow.Agree (v : ℕ → ℝ) (p : PTranspiledFlow) (t : TranspiledFlow) : Prop where
  og : p.og.Agree v t.flow.og
  corr : t.flow.corr = p.corr
  layers : t.flow.layers = p.layers
  classical : t.classical = p.classical

theorem PCircuit.causalFlow_at (v : ℕ → ℝ) (c : PCircuit) (ord : SetOrd) (eord : List (ℕ × ℕ) → List (ℕ × ℕ)) :
    ExRel (PTranspiledFlow.Agree v) (c.transpileToCausalFlow ord eord) ((c.at v).transpileToCausalFlow ord eord) := by
  simp only [PCircuit.transpileToCausalFlow, Circuit.transpileToCausalFlow]
  rw [show (c.at v).instrs = c.instrs.map (PInstr.at v) from rfl, ← toJcz_at, show (c.at v).width = c.width from rfl]
  refine (PJczState.run_at (v := v) (p := PJczState.init c.width) (s := JczState.init c.width) _ ⟨rfl, rfl, .nil, rfl, rfl, rfl, rfl⟩).bind fun p s h => ?_
  have hog := PJczState.openGraph_at h c.width eord
  have hz : zCorrections (s.openGraph c.width eord) s.x [] = zCorrections (p.openGraph c.width eord).skeleton p.x [] := by
    rw [hog.1, zCorrections_meas, h.x]
  have hl : ∀ z, correctionsToPartialOrderLayers (s.openGraph c.width eord) ord s.x z =
      correctionsToPartialOrderLayers (p.openGraph c.width eord).skeleton ord p.x z := by
    intro z
    rw [hog.1, layers_meas, h.x]
  simp only [hog.postInit, hz, hl]
  refine ExRel.rfl'.bind fun _ _ _ => ExRel.rfl'.bind fun z z' e => ?_
  subst e
  refine ExRel.rfl'.bind fun y y' e => ?_
  subst e
  exact ⟨hog, h.x, rfl, h.classical⟩

/-- The commands are the same, except that measurements may be described differently. -/
def SameCmds (v : ℕ → ℝ) : List PCommand → List Command → Prop := List.Forall₂ fun a b => SameCommand (a.at v) b

theorem SameCmds.of_at (v : ℕ → ℝ) {ι : Type} (l : List ι) (f : ι → PCommand) (g : ι → Command) (h : ∀ i, (f i).at v = g i) :
    SameCmds v (l.map f) (l.map g) := by
  induction l with
  | nil => exact .nil
  | cons i l ih => exact .cons (by rw [h i]; exact SameCommand.refl _) ih

theorem SameCmds.append {v : ℕ → ℝ} {a b : List PCommand} {a' b' : List Command} (h : SameCmds v a a') (h' : SameCmds v b b') :
    SameCmds v (a ++ b) (a' ++ b') := List.rel_append h h'

theorem POpenGraph.measureCmds_at {v : ℕ → ℝ} {p : POpenGraph} {og : OpenGraph} (h : p.Agree v og)
    (xz xz' : XZCorrections) (e1 : xz'.og = og) (e2 : xz'.x = xz.x) (e3 : xz'.z = xz.z) (ord : SetOrd) (order : List ℕ) :
    ExRel (SameCmds v) (p.measureCmds xz ord order) (xz'.measureCmds ord order) := by
  induction order with
  | nil => exact List.Forall₂.nil
  | cons n order ih =>
    simp only [POpenGraph.measureCmds, XZCorrections.measureCmds, e1, e2, e3]
    rcases h.2.get n with ⟨g1, g2⟩ | ⟨m, m', g1, g2, g3⟩
    · rw [g1, g2]; exact rfl
    · rw [g1, g2]
      refine ih.bind fun a b hab => ?_
      refine List.Forall₂.cons ⟨rfl, rfl, rfl, g3⟩ ?_
      exact (SameCmds.of_at v _ _ _ fun _ => rfl).append ((SameCmds.of_at v _ _ _ fun _ => rfl).append hab)

/-- The patterns are the same, except that measurements may be described differently. -/
structure PPattern.Same (v : ℕ → ℝ) (p : PPattern) (q : Pattern) : Prop where
  inputs : q.inputs = p.inputs
  nNode : q.nNode = p.nNode
  outputs : q.outputs = p.outputs
  seq : SameCmds v p.seq q.seq

theorem PPattern.Same.add {v : ℕ → ℝ} {p : PPattern} {q : Pattern} (h : p.Same v q) {c : PCommand} {c' : Command}
    (hc : SameCommand (c.at v) c') : (p.add c).Same v (q.add c') := by
  have hs : SameCmds v (p.seq ++ [c]) (q.seq ++ [c']) := h.seq.append (.cons hc .nil)
  obtain ⟨h1, h2, h3, h4⟩ := h
  cases c with
  | M n m s t =>
    cases c' with
    | M n' m' s' t' =>
      obtain ⟨rfl, -⟩ := hc
      exact ⟨h1, h2, by simp only [PPattern.add, Pattern.add, h3], hs⟩
    | _ => simp [PCommand.at, SameCommand] at hc
  | _ =>
    cases c' <;> simp [PCommand.at, SameCommand] at hc <;>
      exact ⟨h1, by simp_all [PPattern.add, Pattern.add], by simp_all [PPattern.add, Pattern.add], hs⟩

theorem PPattern.Same.extend {v : ℕ → ℝ} {l : List PCommand} {l' : List Command} (hl : SameCmds v l l') :
    ∀ {p : PPattern} {q : Pattern}, p.Same v q → (l.foldl PPattern.add p).Same v (q.extend l') := by
  induction hl with
  | nil => intro p q h; exact h
  | cons h1 _ ih => intro p q h; exact ih (h.add h1)

theorem PPattern.Same.extend' {v : ℕ → ℝ} {p : PPattern} {q : Pattern} (h : p.Same v q) {l : List PCommand} {l' : List Command}
    (hl : SameCmds v l l') : (l.foldl PPattern.add p).Same v (q.extend l') := PPattern.Same.extend hl h

theorem PPattern.Same.empty (v : ℕ → ℝ) (inputs : List ℕ) : (PPattern.empty inputs).Same v (Pattern.empty inputs) :=
  ⟨rfl, rfl, rfl, .nil⟩

theorem PPattern.Same.reorder {v : ℕ → ℝ} {p : PPattern} {q : Pattern} (h : p.Same v q) (o : List ℕ) :
    ExRel (PPattern.Same v) (p.reorderOutputNodes o) (q.reorderOutputNodes o) := by
  simp only [PPattern.reorderOutputNodes, Pattern.reorderOutputNodes, h.outputs]
  exact ExRel.rfl'.bind fun _ _ _ => ⟨h.inputs, h.nNode, rfl, h.seq⟩

theorem PStdBody.run_same {v : ℕ → ℝ} {l : List PCommand} {l' : List Command} (hl : SameCmds v l l') :
    ∀ {pb : PStdBody} {b : StdBody}, pb.Agree v b → ExRel (PStdBody.Agree v) (pb.run l) (b.run l') := by
  have conv : ∀ (x : Except PyErr PStdBody) (y : Except PyErr StdBody), PStdBody.AgreeE v x y → ExRel (PStdBody.Agree v) x y := by
    intro x y h
    cases x <;> cases y <;> exact h
  induction hl with
  | nil => intro pb b h; exact h
  | @cons c c' l l' h1 _ ih =>
    intro pb b h
    have hs : ExRel (PStdBody.Agree v) (pb.step c) (b.step c') := by
      apply conv
      cases c with
      | M n m s t =>
        cases c' with
        | M n' m' s' t' =>
          obtain ⟨rfl, rfl, rfl, h4⟩ := h1
          exact measure_agree h n m m' h4 s t
        | _ => simp [PCommand.at, SameCommand] at h1
      | _ =>
        cases c' <;> simp [PCommand.at, SameCommand] at h1 <;> simp_all <;> exact other_agree h _ (by intros; simp)
    exact hs.bind fun a b h' => ih h'

theorem PPattern.Same.runnability {v : ℕ → ℝ} {p : PPattern} {q : Pattern} (h : p.Same v q) :
    q.checkRunnability = p.checkRunnability := by
  have hrun : ∀ (l : List PCommand) (l' : List Command), SameCmds v l l' → ∀ st : RunState,
      st.run l' = st.run (l.map PCommand.skeleton) := by
    intro l l' hl
    induction hl with
    | nil => intro st; rfl
    | @cons c c' l l' h1 _ ih =>
      intro st
      have : st.step c' = st.step c.skeleton := by
        cases c with
        | M n m s t =>
          cases c' with
          | M n' m' s' t' => obtain ⟨rfl, rfl, rfl, -⟩ := h1; rfl
          | _ => simp [PCommand.at, SameCommand] at h1
        | _ => cases c' <;> simp [PCommand.at, SameCommand] at h1 <;> simp_all [PCommand.skeleton]
      rw [List.map_cons, RunState.run, RunState.run, this]
      cases st.step c.skeleton with
      | error e => rfl
      | ok st' => exact ih st'
  simp only [PPattern.checkRunnability, Pattern.checkRunnability, h.inputs, hrun _ _ h.seq]

/-- The standardized patterns agree. -/
structure PStdPattern.Agree (v : ℕ → ℝ) (p : PStdPattern) (sp : StdPattern) : Prop where
  body : p.toPStdBody.Agree v sp.toStdBody
  inputs : sp.inputs = p.inputs
  outputs : sp.outputs = p.outputs

theorem PStdPattern.fromPattern_at {v : ℕ → ℝ} {p : PPattern} {q : Pattern} (h : p.Same v q) :
    ExRel (PStdPattern.Agree v) (PStdPattern.fromPattern p) (StdPattern.fromPattern q) := by
  simp only [PStdPattern.fromPattern, StdPattern.fromPattern, h.runnability]
  cases p.checkRunnability with
  | error e => exact rfl
  | ok u =>
    exact (PStdBody.run_same h.seq ⟨rfl, .nil⟩).bind fun a b hab => ⟨hab, h.inputs, h.outputs⟩

/-- The states of `standardized_to_space_optimal_pattern` agree. -/
structure POptState.Agree (v : ℕ → ℝ) (p : POptState) (s : OptState) : Prop where
  seq : SameCmds v p.seq s.seq
  initialized : s.initialized = p.initialized
  done : s.done = p.done

namespace POptState

theorem ensureActive_at {v : ℕ → ℝ} {p : POptState} {s : OptState} (h : p.Agree v s) (nd : PyDict ℕ PlanarState) (n : ℕ) :
    ExRel (Agree v) (p.ensureActive nd n) (s.ensureActive nd n) := by
  simp only [ensureActive, OptState.ensureActive, h.initialized]
  split_ifs
  · exact h
  · cases PyDict.get? nd n with
    | none => exact rfl
    | some st => exact ⟨h.seq.append (.cons (SameCommand.refl _) .nil), rfl, h.done⟩

theorem ensureNeighborhood_at {v : ℕ → ℝ} {p : POptState} {s : OptState} (h : p.Agree v s) (nd : PyDict ℕ PlanarState)
    (nbr : ℕ → List ℕ) (n : ℕ) : ExRel (Agree v) (p.ensureNeighborhood nd nbr n) (s.ensureNeighborhood nd nbr n) := by
  refine (ensureActive_at h nd n).bind fun a b hab => ?_
  refine ExRel.foldlM (T := fun i j => i = j) (List.forall₂_same.2 fun _ _ => rfl) ?_ hab
  rintro a b i _ h rfl
  simp only [linkNeighbor, OptState.linkNeighbor, h.done]
  split_ifs
  · exact h
  · exact (ensureActive_at h nd i).bind fun a b hab => ⟨hab.seq.append (.cons (SameCommand.refl _) .nil), hab.initialized, hab.done⟩

end POptState

theorem PStdPattern.space_at {v : ℕ → ℝ} {p : PStdPattern} {sp : StdPattern} (h : p.Agree v sp) (nbr : ℕ → List ℕ) :
    ExRel (PPattern.Same v) (p.toSpaceOptimalPattern nbr) (sp.toSpaceOptimalPattern nbr) := by
  have eN : sp.nList = p.base.nList := by rw [h.body.base]
  have eZ : sp.zDict = p.base.zDict := by rw [h.body.base]
  have eX : sp.xDict = p.base.xDict := by rw [h.body.base]
  have eC : sp.cDict = p.base.cDict := by rw [h.body.base]
  have hnd : sp.nDict = p.nDict := by simp only [StdPattern.nDict, PStdPattern.nDict, eN]
  have hcor : ∀ n, SameCmds v (p.optCorrections n) (sp.optCorrections n) := by
    intro n
    simp only [StdPattern.optCorrections, PStdPattern.optCorrections, eZ, eX, eC]
    refine SameCmds.append (SameCmds.append ?_ ?_) ?_
    · cases PyDict.get? p.base.zDict n with
      | none => exact .nil
      | some d => dsimp only; split_ifs <;> first | exact .nil | exact .cons (SameCommand.refl _) .nil
    · cases PyDict.get? p.base.xDict n with
      | none => exact .nil
      | some d => dsimp only; split_ifs <;> first | exact .nil | exact .cons (SameCommand.refl _) .nil
    · cases PyDict.get? p.base.cDict n with
      | none => exact .nil
      | some d => exact .cons (SameCommand.refl _) .nil
  have hseq : ExRel (POptState.Agree v) (p.optSeq nbr) (sp.optSeq nbr) := by
    simp only [PStdPattern.optSeq, StdPattern.optSeq]
    refine ExRel.bind (R := POptState.Agree v) (ExRel.foldlM h.body.m ?_ ⟨.nil, by rw [h.inputs], rfl⟩) fun a b hab => ?_
    · rintro a b i j h' ⟨g1, g2, g3, g4⟩
      simp only [PStdPattern.optMeasure, StdPattern.optMeasure, hnd, ← g1]
      exact (POptState.ensureNeighborhood_at h' _ _ _).bind fun a b hab =>
        ⟨hab.seq.append (.cons ⟨g1, g2, g3, g4⟩ .nil), hab.initialized, by rw [hab.done]⟩
    · rw [h.outputs]
      refine ExRel.foldlM (T := fun i j => i = j) (List.forall₂_same.2 fun _ _ => rfl) ?_ hab
      rintro a b i _ h rfl
      simp only [PStdPattern.optOutput, StdPattern.optOutput, hnd]
      exact (POptState.ensureNeighborhood_at h _ _ _).bind fun a b hab =>
        ⟨hab.seq.append (hcor i), hab.initialized, by rw [hab.done]⟩
  refine hseq.bind fun a b hab => ?_
  rw [h.inputs, h.outputs]
  exact ((PPattern.Same.empty v p.inputs).extend' hab.seq).reorder _

/-- The transpiled patterns agree. -/
structure PTranspiledPattern.Same (v : ℕ → ℝ) (p : PTranspiledPattern) (t : TranspiledPattern) : Prop where
  pattern : p.pattern.Same v t.pattern
  classical : t.classicalOutputs = p.classicalOutputs

theorem PTranspiledFlow.toPattern_at {v : ℕ → ℝ} {p : PTranspiledFlow} {t : TranspiledFlow} (h : p.Agree v t) (ord : SetOrd)
    (nbr : Finset (Sym2 ℕ) → ℕ → List ℕ) : ExRel (PTranspiledPattern.Same v) (p.toPattern ord nbr) (t.toPattern ord nbr) := by
  simp only [PTranspiledFlow.toPattern, TranspiledFlow.toPattern]
  have hxz : ExRel (fun (xz xz' : XZCorrections) => xz.og = p.og.skeleton ∧ xz'.og = t.flow.og ∧ xz'.x = xz.x ∧ xz'.z = xz.z ∧
      xz'.layers = xz.layers) (Flow.mk p.og.skeleton p.corr p.layers).toXZC t.flow.toXZC := by
    simp only [Flow.toXZC]
    have : Flow.cCorrections t.flow.og t.flow.corr ([], []) = Flow.cCorrections p.og.skeleton p.corr ([], []) := by
      rw [h.og.1, cCorrections_meas, h.corr]
    rw [this]
    refine ExRel.rfl'.bind fun a b e => ?_
    subst e
    exact ⟨rfl, rfl, rfl, rfl, h.layers⟩
  refine hxz.bind fun xz xz' ⟨e1, e2, e3, e4, e5⟩ => ?_
  have hnodes : t.flow.og.nodes = p.og.nodes := by rw [h.og.1]; rfl
  have houts : t.flow.og.outputs = p.og.outputs := by rw [h.og.1]; rfl
  have hins : t.flow.og.inputs = p.og.inputs := by rw [h.og.1]; rfl
  have hedges : t.flow.og.edges = p.og.edges := by rw [h.og.1]; rfl
  have hcl : t.flow.og.cliffords = p.og.cliffords := by rw [h.og.1]; rfl
  have hord : xz'.generateTotalMeasurementOrder ord = xz.generateTotalMeasurementOrder ord := by
    simp only [XZCorrections.generateTotalMeasurementOrder, OpenGraph.measuredLayers, e1, e2, e5, hnodes, houts]
    rfl
  simp only [XZCorrections.toPattern, bind_assoc, hord]
  refine ExRel.rfl'.bind fun order order' e => ?_
  subst e
  have hb : ExRel (PPattern.Same v) (p.og.buildPattern xz ord order) (xz'.buildPattern ord order) := by
    simp only [POpenGraph.buildPattern, XZCorrections.buildPattern, e2, hnodes, houts, hins, hedges, hcl]
    refine (POpenGraph.measureCmds_at h.og xz xz' e2 e3 e4 ord order).bind fun a b hab => ?_
    refine ((PPattern.Same.empty v _).extend' ?_).reorder _
    exact (SameCmds.of_at v _ _ _ fun _ => rfl).append ((SameCmds.of_at v _ _ _ fun _ => rfl).append
      (hab.append (SameCmds.of_at v _ _ _ fun _ => rfl)))
  refine hb.bind fun pp q hpq => (PStdPattern.fromPattern_at hpq).bind fun psp sp hsp => ?_
  have hE : sp.eSet = psp.base.eSet := by rw [hsp.body.base]
  rw [hE]
  refine (PStdPattern.space_at hsp _).bind fun a b hab => ?_
  refine ⟨?_, by rw [h.classical]⟩
  dsimp only
  rw [h.classical]
  exact hab.extend' (SameCmds.of_at v _ _ _ fun _ => rfl)

theorem PCircuit.keepSwaps_at (v : ℕ → ℝ) (c : PCircuit) (ord : SetOrd) (eord : List (ℕ × ℕ) → List (ℕ × ℕ))
    (nbr : Finset (Sym2 ℕ) → ℕ → List ℕ) :
    ExRel (PTranspiledPattern.Same v) (c.transpileKeepSwaps ord eord nbr) ((c.at v).transpileKeepSwaps ord eord nbr) :=
  (PCircuit.causalFlow_at v c ord eord).bind fun _ _ h => PTranspiledFlow.toPattern_at h ord nbr

theorem PCircuit.transpile_at (v : ℕ → ℝ) (c : PCircuit) (ord : SetOrd) (eord : List (ℕ × ℕ) → List (ℕ × ℕ))
    (nbr : Finset (Sym2 ℕ) → ℕ → List ℕ) :
    ExRel (PTranspiledPattern.Same v) (c.transpile ord eord nbr) ((c.at v).transpile ord eord nbr) := by
  simp only [PCircuit.transpile, Circuit.transpile, Graphix.transpileSwaps, bind_assoc]
  refine (PCircuit.swaps_at v c.instrs (PCircuit.new c.width) _ 0).bind fun a b h => ?_
  subst h
  obtain ⟨pc, outs⟩ := a
  simp only [pure_bind]
  refine (PCircuit.keepSwaps_at v pc ord eord nbr).bind fun pt t ht => ?_
  have hsw : ∀ l, TranspileSwapsResult.swapOutputNodes ⟨pc.at v, outs⟩ l = TranspileSwapsResult.swapOutputNodes ⟨Circuit.new c.width, outs⟩ l :=
    fun l => rfl
  have hcl : ∀ l, TranspileSwapsResult.swapClassicalOutputs ⟨pc.at v, outs⟩ l = TranspileSwapsResult.swapClassicalOutputs ⟨Circuit.new c.width, outs⟩ l :=
    fun l => rfl
  simp only [hsw, hcl, ht.pattern.outputs, ht.classical]
  refine ExRel.rfl'.bind fun x y e => ?_
  subst e
  refine (ht.pattern.reorder x).bind fun p q hpq => ExRel.rfl'.bind fun x y e => ?_
  subst e
  exact ⟨hpq, rfl⟩

end Graphix
