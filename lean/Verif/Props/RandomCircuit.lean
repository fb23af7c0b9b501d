import Verif.Model.RandomObjects
import Verif.Props.Swaps

/-!
# C66: random circuits
-/

namespace Graphix

/-! ### Specification -/

/-- Two different qubits among `n`. -/
def GoodPair (n : ℕ) (p : ℕ × ℕ) : Prop := p.1 < n ∧ p.2 < n ∧ p.1 ≠ p.2

/-- Three different qubits among `n`. -/
def GoodTriplet (n : ℕ) (p : ℕ × ℕ × ℕ) : Prop := p.1 < n ∧ p.2.1 < n ∧ p.2.2 < n ∧ p.1 ≠ p.2.1 ∧ p.1 ≠ p.2.2 ∧ p.2.1 ≠ p.2.2

/-- The single-qubit gates that `rand_circuit` documents: `H`, `S`, `X`, `Y`, `Z`, rotations by `±π/4`, `J(π/4)` on demand, and the rotations
about any axis by a parameter. -/
def DocGate (opts : RandOpts) : Instr → Prop
  | .H _ | .S _ | .X _ | .Y _ | .Z _ => True
  | .RX _ θ => θ = -1 / 4 ∨ θ ∈ opts.parameters.elems
  | .RY _ θ => θ = 1 / 4 ∨ θ ∈ opts.parameters.elems
  | .RZ _ θ => θ = -1 / 4 ∨ θ ∈ opts.parameters.elems
  | .J _ θ => θ = 1 / 4 ∧ opts.useJ = true
  | _ => False

/-- The qubit of a single-qubit gate. -/
def Instr.target1 : Instr → Option ℕ
  | .H q | .S q | .X q | .Y q | .Z q | .I q | .RX q _ | .RY q _ | .RZ q _ | .J q _ => some q
  | _ => none

/-- A layer of `rand_circuit`: two CNOT, then, on demand, two CZ, two RZZ of angle `π/4` and two CCX, two SWAP, all on different qubits; then
one documented gate on each qubit in turn. -/
def IsRandLayer (n : ℕ) (opts : RandOpts) (l : List Instr) : Prop :=
  ∃ (cx cz zz sw : List (ℕ × ℕ)) (cc : List (ℕ × ℕ × ℕ)) (one : List Instr),
    l = cx.map (fun p => .CNOT p.1 p.2) ++ cz.map (fun p => .CZ p.1 p.2) ++ zz.map (fun p => .RZZ p.1 p.2 (1 / 4)) ++
      cc.map (fun p => .CCX p.1 p.2.1 p.2.2) ++ sw.map (fun p => .SWAP p.1 p.2) ++ one ∧
    cx.length = 2 ∧ cz.length = (if opts.useCz then 2 else 0) ∧ zz.length = (if opts.useRzz then 2 else 0) ∧
    cc.length = (if opts.useCcx then 2 else 0) ∧ sw.length = 2 ∧
    (∀ p ∈ cx ++ cz ++ zz ++ sw, GoodPair n p) ∧ (∀ p ∈ cc, GoodTriplet n p) ∧
    one.map Instr.target1 = (List.range n).map some ∧ ∀ i ∈ one, DocGate opts i

/-! ### Circuits made of gates -/

namespace Circuit

/-- The circuit with more instructions. -/
def app (c : Circuit) (l : List Instr) : Circuit := ⟨c.width, c.instrs ++ l, c.active⟩

@[simp] theorem app_active (c : Circuit) (l : List Instr) : (c.app l).active = c.active := rfl
@[simp] theorem app_width (c : Circuit) (l : List Instr) : (c.app l).width = c.width := rfl
@[simp] theorem app_instrs (c : Circuit) (l : List Instr) : (c.app l).instrs = c.instrs ++ l := rfl
@[simp] theorem app_nil (c : Circuit) : c.app [] = c := by simp [app]
theorem app_app (c : Circuit) (l l' : List Instr) : (c.app l).app l' = c.app (l ++ l') := by simp [app]

theorem add_gate {c : Circuit} {i : Instr} (hg : i.isGate) (h : instrOk c.active i = true) : c.add i = .ok (c.app [i]) := by
  unfold add
  rw [if_pos h]
  cases i <;> first | rfl | exact hg.elim

theorem extend_gates {c : Circuit} {l : List Instr} (hg : ∀ i ∈ l, i.isGate ∧ instrOk c.active i = true) : c.extend l = .ok (c.app l) := by
  induction l generalizing c with
  | nil => simp [extend]
  | cons i l ih =>
    rw [extend, add_gate (hg i (by simp)).1 (hg i (by simp)).2]
    simp only [bind, Except.bind]
    rw [ih (c := c.app [i]) fun j hj => hg j (by simp [hj]), app_app]; rfl

theorem app_built {n : ℕ} {l : List Instr} (hg : ∀ i ∈ l, i.isGate ∧ instrOk (Finset.range n) i = true) : ((Circuit.new n).app l).Built :=
  ⟨n, l, extend_gates hg⟩

end Circuit

theorem goodPair_ok {n : ℕ} {p : ℕ × ℕ} (h : GoodPair n p) (θ : ℝ) : Circuit.instrOk (Finset.range n) (.CNOT p.1 p.2) = true ∧
    Circuit.instrOk (Finset.range n) (.CZ p.1 p.2) = true ∧ Circuit.instrOk (Finset.range n) (.RZZ p.1 p.2 θ) = true ∧
    Circuit.instrOk (Finset.range n) (.SWAP p.1 p.2) = true := by
  obtain ⟨h1, h2, h3⟩ := h
  simp [Circuit.instrOk, h1, h2, h3]

theorem shuffled_pair {n x y : ℕ} {l t : List ℕ} (hp : l.Perm (List.range n)) (h : l = x :: y :: t) : GoodPair n (x, y) := by
  subst h
  have hn : (x :: y :: t).Nodup := hp.nodup_iff.2 List.nodup_range
  refine ⟨?_, ?_, ?_⟩
  · exact List.mem_range.1 (hp.mem_iff.1 (by simp))
  · exact List.mem_range.1 (hp.mem_iff.1 (by simp))
  · simp at hn; tauto

theorem shuffled_triplet {n x y z : ℕ} {l t : List ℕ} (hp : l.Perm (List.range n)) (h : l = x :: y :: z :: t) : GoodTriplet n (x, y, z) := by
  subst h
  have hn : (x :: y :: z :: t).Nodup := hp.nodup_iff.2 List.nodup_range
  refine ⟨?_, ?_, ?_, ?_, ?_, ?_⟩
  · exact List.mem_range.1 (hp.mem_iff.1 (by simp))
  · exact List.mem_range.1 (hp.mem_iff.1 (by simp))
  · exact List.mem_range.1 (hp.mem_iff.1 (by simp))
  all_goals simp at hn; tauto

theorem genPairs_ok {env : RandEnv} (henv : env.Ok) {n : ℕ} (hn : 2 ≤ n) (count : ℕ) : ∀ (k : ℕ) (choice : List ℕ), choice.Perm (List.range n) →
    ∃ l, genPairs env k choice count = .ok (l, k + count) ∧ l.length = count ∧ ∀ p ∈ l, GoodPair n p := by
  induction count with
  | zero => exact fun k choice _ => ⟨[], rfl, rfl, by simp⟩
  | succ count ih =>
    intro k choice hc
    have hp := (henv.shuffle k choice).trans hc
    obtain ⟨l, h1, h2, h3⟩ := ih (k + 1) _ hp
    have hl : (env.shuffle k choice).length = n := by rw [hp.length_eq, List.length_range]
    unfold genPairs
    rcases hs : env.shuffle k choice with _ | ⟨x, _ | ⟨y, t⟩⟩
    · rw [hs] at hl; simp at hl; omega
    · rw [hs] at hl; simp at hl; omega
    · rw [hs] at h1
      refine ⟨(x, y) :: l, ?_, by simp [h2], ?_⟩
      · simp only [h1, bind, Except.bind, pure, Except.pure]
        rw [show k + 1 + count = k + (count + 1) by omega]
      · intro p hp'
        rcases List.mem_cons.1 hp' with rfl | hp'
        · exact shuffled_pair hp hs
        · exact h3 p hp'

theorem genTriplets_ok {env : RandEnv} (henv : env.Ok) {n : ℕ} (hn : 3 ≤ n) (count : ℕ) : ∀ (k : ℕ) (choice : List ℕ),
    choice.Perm (List.range n) →
    ∃ l, genTriplets env k choice count = .ok (l, k + count) ∧ l.length = count ∧ ∀ p ∈ l, GoodTriplet n p := by
  induction count with
  | zero => exact fun k choice _ => ⟨[], rfl, rfl, by simp⟩
  | succ count ih =>
    intro k choice hc
    have hp := (henv.shuffle k choice).trans hc
    obtain ⟨l, h1, h2, h3⟩ := ih (k + 1) _ hp
    have hl : (env.shuffle k choice).length = n := by rw [hp.length_eq, List.length_range]
    unfold genTriplets
    rcases hs : env.shuffle k choice with _ | ⟨x, _ | ⟨y, _ | ⟨z, t⟩⟩⟩
    · rw [hs] at hl; simp at hl; omega
    · rw [hs] at hl; simp at hl; omega
    · rw [hs] at hl; simp at hl; omega
    · rw [hs] at h1
      refine ⟨(x, y, z) :: l, ?_, by simp [h2], ?_⟩
      · simp only [h1, bind, Except.bind, pure, Except.pure]
        rw [show k + 1 + count = k + (count + 1) by omega]
      · intro p hp'
        rcases List.mem_cons.1 hp' with rfl | hp'
        · exact shuffled_triplet hp hs
        · exact h3 p hp'

theorem addPairs_ok {env : RandEnv} (henv : env.Ok) {n : ℕ} (hn : 2 ≤ n) {gate : ℕ → ℕ → Instr}
    (hg : ∀ p : ℕ × ℕ, GoodPair n p → (gate p.1 p.2).isGate ∧ Circuit.instrOk (Finset.range n) (gate p.1 p.2) = true)
    {c : Circuit} (hc : c.active = Finset.range n) (k : ℕ) :
    ∃ (l : List (ℕ × ℕ)) (k' : ℕ), addPairs env n gate c k = .ok (c.app (l.map fun p => gate p.1 p.2), k') ∧ l.length = 2 ∧ ∀ p ∈ l, GoodPair n p := by
  obtain ⟨l, h1, h2, h3⟩ := genPairs_ok henv hn 2 k _ (List.Perm.refl _)
  refine ⟨l, k + 2, ?_, h2, h3⟩
  unfold addPairs
  simp only [h1, bind, Except.bind]
  rw [Circuit.extend_gates]
  · rfl
  · rw [hc]; intro i hi
    obtain ⟨p, hp, rfl⟩ := List.mem_map.1 hi
    exact hg p (h3 p hp)

theorem addTriplets_ok {env : RandEnv} (henv : env.Ok) {n : ℕ} (hn : 3 ≤ n) {c : Circuit} (hc : c.active = Finset.range n) (k : ℕ) :
    ∃ (l : List (ℕ × ℕ × ℕ)) (k' : ℕ), addTriplets env n c k = .ok (c.app (l.map fun p => .CCX p.1 p.2.1 p.2.2), k') ∧ l.length = 2 ∧ ∀ p ∈ l, GoodTriplet n p := by
  obtain ⟨l, h1, h2, h3⟩ := genTriplets_ok henv hn 2 k _ (List.Perm.refl _)
  refine ⟨l, k + 2, ?_, h2, h3⟩
  unfold addTriplets
  simp only [h1, bind, Except.bind]
  rw [Circuit.extend_gates]
  · rfl
  · rw [hc]; intro i hi
    obtain ⟨p, hp, rfl⟩ := List.mem_map.1 hi
    obtain ⟨a1, a2, a3, a4, a5, a6⟩ := h3 p hp
    simp [Instr.isGate, Circuit.instrOk, *]

/-- The gates actually available: the parametrised `RY` and `RZ` need `parameters` to be iterable again. -/
theorem gateChoice_spec {opts : RandOpts} {g : ℕ → Instr} (h : g ∈ gateChoice opts.parameters opts.useJ) (q : ℕ) :
    (g q).target1 = some q ∧ (g q).isGate ∧ DocGate opts (g q) := by
  have hr : ∀ θ ∈ opts.parameters.rest.elems, θ ∈ opts.parameters.elems := by
    cases opts.parameters <;> simp [PyIterable.rest, PyIterable.elems]
  have hr' : ∀ θ ∈ opts.parameters.rest.rest.elems, θ ∈ opts.parameters.elems := by
    cases opts.parameters <;> simp [PyIterable.rest, PyIterable.elems]
  simp only [gateChoice, parametricGateChoice, List.mem_append, List.mem_map, List.mem_cons, List.not_mem_nil, or_false] at h
  rcases h with (h | (⟨θ, hθ, rfl⟩ | ⟨θ, hθ, rfl⟩) | ⟨θ, hθ, rfl⟩) | h
  · rcases h with rfl | rfl | rfl | rfl | rfl | rfl | rfl | rfl <;> simp [Instr.target1, Instr.isGate, DocGate]
  · simp [Instr.target1, Instr.isGate, DocGate, hθ]
  · simp [Instr.target1, Instr.isGate, DocGate, hr θ hθ]
  · simp [Instr.target1, Instr.isGate, DocGate, hr' θ hθ]
  · split at h
    · rename_i hj
      obtain rfl := List.mem_singleton.1 h
      simp [Instr.target1, Instr.isGate, DocGate, hj]
    · simp at h

theorem target1_ok {i : Instr} {q n : ℕ} (h : i.target1 = some q) (hq : q < n) : Circuit.instrOk (Finset.range n) i = true := by
  cases i <;> simp_all [Instr.target1, Circuit.instrOk]

theorem singleGates_ok {env : RandEnv} (henv : env.Ok) {n : ℕ} {gates : List (ℕ → Instr)} (h0 : 0 < gates.length)
    (hg : ∀ g ∈ gates, ∀ q, (g q).target1 = some q ∧ (g q).isGate) (qs : List ℕ) : ∀ (c : Circuit) (k : ℕ), c.active = Finset.range n →
    (∀ q ∈ qs, q < n) →
    ∃ l k', singleGates env gates c k qs = .ok (c.app l, k') ∧ l.map Instr.target1 = qs.map some ∧
      ∀ i ∈ l, ∃ g ∈ gates, ∃ q, i = g q := by
  induction qs with
  | nil => exact fun c k _ _ => ⟨[], k, by simp [singleGates], rfl, by simp⟩
  | cons q qs ih =>
    intro c k hc hq
    have hi := henv.integers k _ h0
    have hmem : gates[env.integers k gates.length] ∈ gates := List.getElem_mem _
    obtain ⟨l, k', h1, h2, h3⟩ := ih (c.app [gates[env.integers k gates.length] q]) (k + 1) hc fun q' hq' => hq q' (by simp [hq'])
    refine ⟨gates[env.integers k gates.length] q :: l, k', ?_, ?_, ?_⟩
    · unfold singleGates
      rw [List.getElem?_eq_getElem hi]
      dsimp only
      rw [Circuit.add_gate (hg _ hmem q).2 (by rw [hc]; exact target1_ok (hg _ hmem q).1 (hq q (by simp)))]
      simp only [bind, Except.bind]
      rw [h1, Circuit.app_app]; rfl
    · simp [h2, (hg _ hmem q).1]
    · intro i hi'
      rcases List.mem_cons.1 hi' with rfl | hi'
      · exact ⟨_, hmem, q, rfl⟩
      · exact h3 i hi'

theorem gateChoice_pos (opts : RandOpts) : 0 < (gateChoice opts.parameters opts.useJ).length := by
  simp [gateChoice]

/-- Gates of a layer of which the single-qubit gates are taken in a given list. -/
def LayerFrom (n : ℕ) (opts : RandOpts) (gates : List (ℕ → Instr)) (l : List Instr) : Prop :=
  IsRandLayer n opts l ∧ ∀ i ∈ l, i.target1.isSome → ∃ g ∈ gates, ∃ q, i = g q

theorem randLayer_ok {env : RandEnv} (henv : env.Ok) {n : ℕ} {opts : RandOpts} (hn : 2 ≤ n) (hn' : opts.useCcx = true → 3 ≤ n)
    {c : Circuit} (hc : c.active = Finset.range n) (k : ℕ) :
    ∃ l k', randLayer env n opts (gateChoice opts.parameters opts.useJ) c k = .ok (c.app l, k') ∧
      LayerFrom n opts (gateChoice opts.parameters opts.useJ) l := by
  obtain ⟨cx, k1, a1, a2, a3⟩ := addPairs_ok henv hn (gate := .CNOT) (fun p hp => ⟨trivial, (goodPair_ok hp 0).1⟩) hc k
  have b : ∃ (cz : List (ℕ × ℕ)) (k2 : ℕ), (if opts.useCz then addPairs env n .CZ (c.app (cx.map fun p => .CNOT p.1 p.2)) k1
      else .ok (c.app (cx.map fun p => .CNOT p.1 p.2), k1)) =
      .ok ((c.app (cx.map fun p => .CNOT p.1 p.2)).app (cz.map fun p => .CZ p.1 p.2), k2) ∧
      cz.length = (if opts.useCz then 2 else 0) ∧ ∀ p ∈ cz, GoodPair n p := by
    split
    · exact addPairs_ok henv hn (gate := .CZ) (fun p hp => ⟨trivial, (goodPair_ok hp 0).2.1⟩) (by simpa using hc) k1
    · exact ⟨[], k1, by simp, rfl, by simp⟩
  obtain ⟨cz, k2, b1, b2, b3⟩ := b
  rw [Circuit.app_app] at b1
  set c2 := c.app (cx.map (fun p => Instr.CNOT p.1 p.2) ++ cz.map fun p => Instr.CZ p.1 p.2) with hc2
  have d : ∃ (zz : List (ℕ × ℕ)) (k3 : ℕ), (if opts.useRzz then addPairs env n (fun j k => .RZZ j k (1 / 4)) c2 k2 else .ok (c2, k2)) =
      .ok (c2.app (zz.map fun p => .RZZ p.1 p.2 (1 / 4)), k3) ∧
      zz.length = (if opts.useRzz then 2 else 0) ∧ ∀ p ∈ zz, GoodPair n p := by
    split
    · exact addPairs_ok henv hn (gate := fun j k => .RZZ j k (1 / 4)) (fun p hp => ⟨trivial, (goodPair_ok hp _).2.2.1⟩)
        (by simpa [c2] using hc) k2
    · exact ⟨[], k2, by simp, rfl, by simp⟩
  obtain ⟨zz, k3, d1, d2, d3⟩ := d
  set c3 := c2.app (zz.map fun p => Instr.RZZ p.1 p.2 (1 / 4)) with hc3
  have e : ∃ (cc : List (ℕ × ℕ × ℕ)) (k4 : ℕ), (if opts.useCcx then addTriplets env n c3 k3 else .ok (c3, k3)) =
      .ok (c3.app (cc.map fun p => .CCX p.1 p.2.1 p.2.2), k4) ∧
      cc.length = (if opts.useCcx then 2 else 0) ∧ ∀ p ∈ cc, GoodTriplet n p := by
    split
    · rename_i h
      exact addTriplets_ok henv (hn' h) (by simpa [c3, c2] using hc) k3
    · exact ⟨[], k3, by simp, rfl, by simp⟩
  obtain ⟨cc, k4, e1, e2, e3⟩ := e
  set c4 := c3.app (cc.map fun p => Instr.CCX p.1 p.2.1 p.2.2) with hc4
  obtain ⟨sw, k5, f1, f2, f3⟩ := addPairs_ok henv hn (gate := .SWAP) (fun p hp => ⟨trivial, (goodPair_ok hp 0).2.2.2⟩)
    (show c4.active = _ by simpa [c4, c3, c2] using hc) k4
  obtain ⟨one, k6, g1, g2, g3⟩ := singleGates_ok henv (n := n) (gateChoice_pos opts)
    (fun g hg q => ⟨(gateChoice_spec hg q).1, (gateChoice_spec hg q).2.1⟩) (List.range n)
    (c4.app (sw.map fun p => .SWAP p.1 p.2)) k5 (by simpa [c4, c3, c2] using hc) (fun q hq => List.mem_range.1 hq)
  refine ⟨_, k6, ?_, ⟨cx, cz, zz, sw, cc, one, rfl, a2, b2, d2, e2, f2, ?_, e3, g2, ?_⟩, ?_⟩
  · unfold randLayer
    rw [a1]
    simp only [bind, Except.bind]
    rw [b1]
    dsimp only
    rw [d1]
    dsimp only
    rw [e1]
    dsimp only
    rw [f1]
    dsimp only
    rw [g1]
    simp only [c4, c3, c2, Circuit.app_app, List.append_assoc]
  · simp only [List.mem_append]
    rintro p (((h | h) | h) | h)
    exacts [a3 p h, b3 p h, d3 p h, f3 p h]
  · intro i hi
    obtain ⟨g, hg, q, rfl⟩ := g3 i hi
    exact (gateChoice_spec hg q).2.2
  · intro i hi hs
    simp only [List.mem_append, List.mem_map] at hi
    rcases hi with ((((⟨p, -, rfl⟩ | ⟨p, -, rfl⟩) | ⟨p, -, rfl⟩) | ⟨p, -, rfl⟩) | ⟨p, -, rfl⟩) | hi
    iterate 5 simp [Instr.target1] at hs
    exact g3 i hi

theorem randLayers_ok {env : RandEnv} (henv : env.Ok) {n : ℕ} {opts : RandOpts} (hn : 2 ≤ n) (hn' : opts.useCcx = true → 3 ≤ n)
    (depth : ℕ) : ∀ (c : Circuit) (k : ℕ), c.active = Finset.range n →
    ∃ layers : List (List Instr), randLayers env n opts (gateChoice opts.parameters opts.useJ) c k depth = .ok (c.app layers.flatten) ∧
      layers.length = depth ∧ ∀ l ∈ layers, LayerFrom n opts (gateChoice opts.parameters opts.useJ) l := by
  induction depth with
  | zero => exact fun c k _ => ⟨[], by simp [randLayers], rfl, by simp⟩
  | succ depth ih =>
    intro c k hc
    obtain ⟨l, k', h1, h2⟩ := randLayer_ok henv hn hn' hc k
    obtain ⟨layers, h3, h4, h5⟩ := ih (c.app l) k' hc
    refine ⟨l :: layers, ?_, by simp [h4], ?_⟩
    · unfold randLayers
      simp only [h1, bind, Except.bind]
      rw [h3, Circuit.app_app, List.flatten_cons]
    · intro m hm
      rcases List.mem_cons.1 hm with rfl | hm
      · exact h2
      · exact h5 m hm

/-- The instructions of a layer are gates on different existing qubits. -/
theorem IsRandLayer.gates {n : ℕ} {opts : RandOpts} {l : List Instr} (h : IsRandLayer n opts l) (i : Instr) (hi : i ∈ l) :
    i.isGate ∧ Circuit.instrOk (Finset.range n) i = true ∧ i.Proper ∧ ¬ i.isId := by
  obtain ⟨cx, cz, zz, sw, cc, one, rfl, -, -, -, -, -, hp, ht, hone, hdoc⟩ := h
  simp only [List.mem_append, List.mem_map] at hi hp
  rcases hi with ((((⟨p, h, rfl⟩ | ⟨p, h, rfl⟩) | ⟨p, h, rfl⟩) | ⟨p, h, rfl⟩) | ⟨p, h, rfl⟩) | hi
  · have g := hp p (by tauto)
    exact ⟨trivial, (goodPair_ok g 0).1, g.2.2, id⟩
  · have g := hp p (by tauto)
    exact ⟨trivial, (goodPair_ok g 0).2.1, g.2.2, id⟩
  · have g := hp p (by tauto)
    exact ⟨trivial, (goodPair_ok g _).2.2.1, g.2.2, id⟩
  · obtain ⟨a1, a2, a3, a4, a5, a6⟩ := ht p h
    simp [Instr.isGate, Circuit.instrOk, Instr.Proper, Instr.isId, *]
  · have g := hp p (by tauto)
    exact ⟨trivial, (goodPair_ok g 0).2.2.2, g.2.2, id⟩
  · have hd := hdoc i hi
    have ht : i.target1 ∈ (List.range n).map some := hone ▸ List.mem_map_of_mem hi
    obtain ⟨q, hq, ht⟩ := List.mem_map.1 ht
    refine ⟨?_, target1_ok ht.symm (List.mem_range.1 hq), ?_, ?_⟩ <;>
      cases i <;> simp_all [DocGate, Instr.isGate, Instr.Proper, Instr.isId]

/-- **C66** `rand_circuit`: whatever the generator answers, on at least two qubits (three when CCX gates are asked for) the call succeeds and returns
a circuit on `nqubits` active qubits made of `depth` layers as documented: every gate acts on different existing qubits, there is no measurement. -/
theorem C66_rand_circuit (env : RandEnv) (henv : env.Ok) (n depth : ℕ) (opts : RandOpts) (hn : 2 ≤ n) (hn' : opts.useCcx = true → 3 ≤ n) :
    ∃ c, randCircuit env n depth opts = .ok c ∧ c.Built ∧ c.width = n ∧ c.active = Finset.range n ∧
      (∀ i ∈ c.instrs, i.isGate ∧ i.Proper ∧ ¬ i.isId) ∧
      ∃ layers : List (List Instr), c.instrs = layers.flatten ∧ layers.length = depth ∧ ∀ l ∈ layers, IsRandLayer n opts l := by
  obtain ⟨layers, h1, h2, h3⟩ := randLayers_ok henv hn hn' depth (Circuit.new n) 0 rfl
  have hg : ∀ i ∈ layers.flatten, i.isGate ∧ Circuit.instrOk (Finset.range n) i = true ∧ i.Proper ∧ ¬ i.isId := by
    intro i hi
    obtain ⟨l, hl, hi⟩ := List.mem_flatten.1 hi
    exact (h3 l hl).1.gates i hi
  refine ⟨_, h1, Circuit.app_built fun i hi => ⟨(hg i hi).1, (hg i hi).2.1⟩, rfl, rfl, ?_, layers, by simp [Circuit.new], h2, fun l hl => (h3 l hl).1⟩
  intro i hi
  have hi : i ∈ layers.flatten := by simpa [Circuit.new] using hi
  exact ⟨(hg i hi).1, (hg i hi).2.2⟩

/-- The number of instructions of a layer. -/
theorem IsRandLayer.length {n : ℕ} {opts : RandOpts} {l : List Instr} (h : IsRandLayer n opts l) :
    l.length = 4 + (if opts.useCz then 2 else 0) + (if opts.useRzz then 2 else 0) + (if opts.useCcx then 2 else 0) + n := by
  obtain ⟨cx, cz, zz, sw, cc, one, rfl, h1, h2, h3, h4, h5, -, -, hone, -⟩ := h
  have := congrArg List.length hone
  simp only [List.length_map, List.length_range] at this
  simp only [List.length_append, List.length_map, h1, h2, h3, h4, h5, this]
  omega

/-- **C66** The number of gates of a random circuit. -/
theorem C66_rand_circuit_size (env : RandEnv) (henv : env.Ok) (n depth : ℕ) (opts : RandOpts) (hn : 2 ≤ n) (hn' : opts.useCcx = true → 3 ≤ n)
    (c : Circuit) (h : randCircuit env n depth opts = .ok c) :
    c.instrs.length = depth * (4 + (if opts.useCz then 2 else 0) + (if opts.useRzz then 2 else 0) + (if opts.useCcx then 2 else 0) + n) := by
  obtain ⟨c', h1, -, -, -, -, layers, h2, rfl, h3⟩ := C66_rand_circuit env henv n depth opts hn hn'
  obtain rfl := Except.ok.inj (h1.symm.trans h)
  rw [h2]
  clear h h1 h2
  induction layers with
  | nil => simp
  | cons l layers ih =>
    rw [List.flatten_cons, List.length_append, (h3 l (by simp)).length, ih fun m hm => h3 m (by simp [hm]), List.length_cons, Nat.add_mul]
    omega

theorem genPairs_small {env : RandEnv} (henv : env.Ok) {n : ℕ} (hn : n < 2) (k count : ℕ) : genPairs env k (List.range n) (count + 1) = .error .valueError := by
  have hl : (env.shuffle k (List.range n)).length = n := by rw [(henv.shuffle k _).length_eq, List.length_range]
  unfold genPairs
  rcases hs : env.shuffle k (List.range n) with _ | ⟨x, _ | ⟨y, t⟩⟩
  · rfl
  · rfl
  · rw [hs] at hl; simp at hl; omega

theorem genTriplets_small {env : RandEnv} (henv : env.Ok) {n : ℕ} (hn : n < 3) (k count : ℕ) :
    genTriplets env k (List.range n) (count + 1) = .error .valueError := by
  have hl : (env.shuffle k (List.range n)).length = n := by rw [(henv.shuffle k _).length_eq, List.length_range]
  unfold genTriplets
  rcases hs : env.shuffle k (List.range n) with _ | ⟨x, _ | ⟨y, _ | ⟨z, t⟩⟩⟩
  · rfl
  · rfl
  · rfl
  · rw [hs] at hl; simp at hl; omega

/-- **C66** On fewer than two qubits (three when CCX gates are asked for) `rand_circuit` raises `ValueError` unless no layer is asked for: the empty
circuit. -/
theorem C66_rand_circuit_small (env : RandEnv) (henv : env.Ok) (n depth : ℕ) (opts : RandOpts) (hn : n < 2 ∨ opts.useCcx = true ∧ n < 3) :
    randCircuit env n depth opts = if depth = 0 then .ok (Circuit.new n) else .error .valueError := by
  cases depth with
  | zero => rfl
  | succ depth =>
    rw [if_neg (by omega)]
    unfold randCircuit randLayers
    suffices h : randLayer env n opts (gateChoice opts.parameters opts.useJ) (Circuit.new n) 0 = .error .valueError by
      rw [h]; rfl
    by_cases h2 : n < 2
    · unfold randLayer addPairs
      rw [genPairs_small henv h2]; rfl
    · obtain ⟨hx, h3⟩ := hn.resolve_left h2
      obtain ⟨cx, k1, a1, -, -⟩ := addPairs_ok henv (n := n) (by omega) (gate := .CNOT) (fun p hp => ⟨trivial, (goodPair_ok hp 0).1⟩)
        (c := Circuit.new n) rfl 0
      have ht : ∀ c k, addTriplets env n c k = .error .valueError := by
        intro c k
        unfold addTriplets
        rw [genTriplets_small henv h3]; rfl
      unfold randLayer
      rw [a1]
      simp only [bind, Except.bind, hx, if_true, ht]
      have b : ∃ (c2 : Circuit) (k2 : ℕ), (if opts.useCz = true then addPairs env n .CZ ((Circuit.new n).app (cx.map fun p => .CNOT p.1 p.2)) k1
          else .ok ((Circuit.new n).app (cx.map fun p => .CNOT p.1 p.2), k1)) = .ok (c2, k2) ∧ c2.active = Finset.range n := by
        split
        · obtain ⟨l, k2, h, -, -⟩ := addPairs_ok henv (n := n) (by omega) (gate := .CZ) (fun p hp => ⟨trivial, (goodPair_ok hp 0).2.1⟩)
            (c := (Circuit.new n).app (cx.map fun p => .CNOT p.1 p.2)) rfl k1
          exact ⟨_, _, h, rfl⟩
        · exact ⟨_, _, rfl, rfl⟩
      obtain ⟨c2, k2, b1, b2⟩ := b
      rw [b1]
      dsimp only
      by_cases hz : opts.useRzz = true
      · obtain ⟨l, k2, h', -, -⟩ := addPairs_ok henv (n := n) (by omega) (gate := fun j k => .RZZ j k (1 / 4))
          (fun p hp => ⟨trivial, (goodPair_ok hp _).2.2.1⟩) b2 k2
        rw [if_pos hz, h']
      · rw [if_neg hz]

theorem sort_range (n : ℕ) : (Finset.range n).sort (· ≤ ·) = List.range n := by
  have h1 : ((Finset.range n).sort (· ≤ ·)).Perm (List.range n) := by
    rw [List.perm_ext_iff_of_nodup (Finset.sort_nodup _ _) List.nodup_range]
    simp
  exact h1.eq_of_pairwise' (Finset.pairwise_sort _ _) (List.pairwise_lt_range.imp le_of_lt)

/-- **C66** A random circuit can always be transpiled, and the resulting pattern implements it: for every outcomes, the pattern does, up to a phase
and normalization, what the circuit does. -/
theorem C66_rand_circuit_transpile (env : RandEnv) (henv : env.Ok) (n depth : ℕ) (opts : RandOpts) (hn : 2 ≤ n) (hn' : opts.useCcx = true → 3 ≤ n)
    (ord : SetOrd) (hord : ord.Valid)
    (eord : List (ℕ × ℕ) → List (ℕ × ℕ)) (he : EdgeOrd.Valid eord) (nbr : Finset (Sym2 ℕ) → ℕ → List ℕ) (hnbr : NbrOrd.Valid nbr) :
    ∃ c res, randCircuit env n depth opts = .ok c ∧ c.transpile ord eord nbr = .ok res ∧ res.pattern.checkRunnability = .ok () ∧
      res.pattern.inputs = List.range n ∧ res.classicalOutputs = [] ∧
      ∃ σ : ℕ → ℕ, (∀ q < n, ∀ q' < n, σ q = σ q' → q = q') ∧ res.pattern.outputs = (List.range n).map σ ∧
        ∀ r, OpPhaseEqOn (OnNodes (List.range n)) (semCmds r res.pattern.seq) fun ψ =>
          ((1 / (Real.sqrt 2 : ℂ)) ^ (measuredIn res.pattern.seq).length • fun b => gates c.instrs ψ (b ∘ σ)) := by
  obtain ⟨c, h1, hc, hw, ha, hg, -⟩ := C66_rand_circuit env henv n depth opts hn hn'
  have hm : measuredQubits c.instrs = [] := by
    unfold measuredQubits
    rw [List.filterMap_eq_nil_iff]
    intro i hi
    have := (hg i hi).1
    cases i <;> first | rfl | exact this.elim
  obtain ⟨sw, h2, -, h3⟩ := C37_transpile_default_partial c hc (fun i hi => (hg i hi).2) ord hord eord he nbr hnbr
  obtain ⟨sw', h2', h4⟩ := C37_transpile_default_no_measure c hc (Or.inl hm)
  rw [h2] at h2'; cases h2'
  obtain ⟨res, h5, h6, h7, σ, h8, h9, h10, k, h11, h12⟩ := h3 h4
  rw [hw, ha, Finset.sdiff_self] at h10
  have hco : res.classicalOutputs = [] := by rw [h10]; simp
  have hk : k = (measuredIn res.pattern.seq).length := by simpa [hco] using h11
  refine ⟨c, res, h1, h5, h6, hw ▸ h7, hco, σ, hw ▸ h8, ?_, ?_⟩
  · rw [h9, ha]; congr 1
    exact sort_range n
  · intro r
    have := h12 r
    rw [hw, hk] at this
    have e : ∀ o ψ, semInstrs o 0 c.instrs ψ = gates c.instrs ψ := by
      intro o ψ
      have := semInstrs_gates o 0 c.instrs [] (fun i hi => (hg i hi).1) ψ
      rwa [List.append_nil] at this
    simpa only [e] using this

/-- **C66 (a defect).** When `parameters` is an iterator, it is exhausted by the first of the three rotations: no `RY` or `RZ` by a parameter is ever
drawn, whatever the generator answers. -/
theorem C66_parameters_iterator (env : RandEnv) (henv : env.Ok) (n depth : ℕ) (opts : RandOpts) (hn : 2 ≤ n) (hn' : opts.useCcx = true → 3 ≤ n)
    (params : List ℝ) (hp : opts.parameters = .iterator params) (c : Circuit) (h : randCircuit env n depth opts = .ok c) (q : ℕ) (θ : ℝ) :
    (.RY q θ ∈ c.instrs → θ = 1 / 4) ∧ (.RZ q θ ∈ c.instrs → θ = -1 / 4) := by
  obtain ⟨layers, h1, h2, h3⟩ := randLayers_ok henv hn hn' depth (Circuit.new n) 0 rfl
  obtain rfl := Except.ok.inj (h1.symm.trans h)
  have key : ∀ i ∈ ((Circuit.new n).app layers.flatten).instrs, i.target1.isSome → ∃ g ∈ gateChoice opts.parameters opts.useJ, ∃ q, i = g q := by
    intro i hi hs
    have hi : i ∈ layers.flatten := by simpa [Circuit.new] using hi
    obtain ⟨l, hl, hi⟩ := List.mem_flatten.1 hi
    exact (h3 l hl).2 i hi hs
  constructor <;> intro hi <;> obtain ⟨g, hg, q', e⟩ := key _ hi rfl <;>
    simp only [gateChoice, parametricGateChoice, hp, PyIterable.elems, PyIterable.rest, List.mem_append, List.mem_map, List.mem_cons,
      List.not_mem_nil, or_false, false_and, exists_false] at hg <;>
    rcases hg with ((rfl | rfl | rfl | rfl | rfl | rfl | rfl | rfl) | ⟨t, ht, rfl⟩) | hg <;> try (cases e <;> rfl)
  all_goals
    split at hg
    · obtain rfl := List.mem_singleton.1 hg
      cases e
    · cases hg

/-- A generator which always answers the smallest value and never permutes. -/
def exRandEnv : RandEnv := ⟨fun _ => 0, fun _ _ => 0, fun _ _ l => l⟩

theorem exRandEnv_ok : exRandEnv.Ok := ⟨fun _ => ⟨le_refl _, one_pos⟩, fun _ _ h => h, fun _ _ l => List.Perm.refl l⟩

/-- A generator which always takes the gate of index `i` if there is one, and reverses the lists. -/
noncomputable def exRandEnv' (i : ℕ) : RandEnv := ⟨fun _ => 1 / 2, fun _ n => min i (n - 1), fun _ _ l => l.reverse⟩

theorem exRandEnv'_ok (i : ℕ) : (exRandEnv' i).Ok :=
  ⟨fun _ => ⟨by norm_num [exRandEnv'], by norm_num [exRandEnv']⟩, fun _ n h => lt_of_le_of_lt (min_le_right _ _) (Nat.sub_lt h one_pos),
    fun _ _ l => List.reverse_perm l⟩

/-- The circuits of two generators. -/
example : ∃ c, randCircuit exRandEnv 2 1 {} = .ok c ∧
    c.instrs = [.CNOT 0 1, .CNOT 0 1, .CZ 0 1, .CZ 0 1, .SWAP 0 1, .SWAP 0 1, .RY 0 (1 / 4), .RY 1 (1 / 4)] := by
  refine ⟨(Circuit.new 2).app [.CNOT 0 1, .CNOT 0 1, .CZ 0 1, .CZ 0 1, .SWAP 0 1, .SWAP 0 1, .RY 0 (1 / 4), .RY 1 (1 / 4)], ?_, rfl⟩
  rfl

example : ∃ c, randCircuit (exRandEnv' 9) 3 1 { useCcx := true, useRzz := true, parameters := .container [5] } = .ok c ∧
    c.instrs = [.CNOT 2 1, .CNOT 0 1, .CZ 2 1, .CZ 0 1, .RZZ 2 1 (1 / 4), .RZZ 0 1 (1 / 4), .CCX 2 1 0, .CCX 0 1 2, .SWAP 2 1, .SWAP 0 1,
      .RY 0 5, .RY 1 5, .RY 2 5] := by
  refine ⟨(Circuit.new 3).app [.CNOT 2 1, .CNOT 0 1, .CZ 2 1, .CZ 0 1, .RZZ 2 1 (1 / 4), .RZZ 0 1 (1 / 4), .CCX 2 1 0, .CCX 0 1 2,
    .SWAP 2 1, .SWAP 0 1, .RY 0 5, .RY 1 5, .RY 2 5], ?_, rfl⟩
  rfl

/-! ### `rand_gate` -/

theorem mem_range_ok {n q : ℕ} (h : q < n) (θ : ℝ) : Circuit.instrOk (Finset.range n) (.RX q θ) = true ∧
    Circuit.instrOk (Finset.range n) (.RZ q θ) = true := by
  simp [Circuit.instrOk, h]

theorem firstRotation_ok (env : RandEnv) {n : ℕ} (qs : List ℕ) : ∀ (c : Circuit) (k : ℕ), c.active = Finset.range n → (∀ q ∈ qs, q < n) →
    firstRotation env c k qs = .ok (c.app (qs.mapIdx fun i q => .RX q (env.random (k + i))), k + qs.length) := by
  induction qs with
  | nil => intro c k _ _; simp [firstRotation]
  | cons q qs ih =>
    intro c k hc hq
    unfold firstRotation
    rw [Circuit.add_gate (i := .RX q (env.random k)) trivial (by rw [hc]; exact (mem_range_ok (hq q (by simp)) _).1)]
    simp only [bind, Except.bind]
    rw [ih _ _ (by exact hc) fun q' h => hq q' (by simp [h]), Circuit.app_app]
    simp [List.mapIdx_cons, Nat.add_assoc, Nat.add_comm, Nat.add_left_comm]

theorem lastRotation_ok (env : RandEnv) {n : ℕ} (qs : List ℕ) : ∀ (c : Circuit) (k : ℕ), c.active = Finset.range n → (∀ q ∈ qs, q < n) →
    lastRotation env c k qs = .ok (c.app (qs.mapIdx fun i q => .RZ q (env.random (k + i))), k + qs.length) := by
  induction qs with
  | nil => intro c k _ _; simp [lastRotation]
  | cons q qs ih =>
    intro c k hc hq
    unfold lastRotation
    rw [Circuit.add_gate (i := .RZ q (env.random k)) trivial (by rw [hc]; exact (mem_range_ok (hq q (by simp)) _).2)]
    simp only [bind, Except.bind]
    rw [ih _ _ (by exact hc) fun q' h => hq q' (by simp [h]), Circuit.app_app]
    simp [List.mapIdx_cons, Nat.add_assoc, Nat.add_comm, Nat.add_left_comm]

theorem midRotation_ok (env : RandEnv) {n : ℕ} (qs : List ℕ) : ∀ (c : Circuit) (k : ℕ), c.active = Finset.range n → (∀ q ∈ qs, q < n) →
    midRotation env c k qs = .ok (c.app (qs.mapIdx fun i q => [.RX q (env.random (k + 2 * i)), .RZ q (env.random (k + 2 * i + 1))]).flatten,
      k + 2 * qs.length) := by
  induction qs with
  | nil => intro c k _ _; simp [midRotation]
  | cons q qs ih =>
    intro c k hc hq
    unfold midRotation
    rw [Circuit.add_gate (i := .RX q (env.random k)) trivial (by rw [hc]; exact (mem_range_ok (hq q (by simp)) _).1)]
    simp only [bind, Except.bind]
    rw [Circuit.add_gate (i := .RZ q (env.random (k + 1))) trivial (by rw [Circuit.app_active, hc]; exact (mem_range_ok (hq q (by simp)) _).2)]
    dsimp only
    rw [ih _ _ (by exact hc) fun q' h => hq q' (by simp [h]), Circuit.app_app, Circuit.app_app]
    have e : ∀ i, k + 2 + 2 * i = k + 2 * (i + 1) := fun i => by omega
    simp [List.mapIdx_cons, e]

theorem entangler_ok {n : ℕ} (ps : List (ℕ × ℕ)) : ∀ (c : Circuit), c.active = Finset.range n → (∀ p ∈ ps, GoodPair n p) →
    entangler c ps = .ok (c.app (ps.map fun p => .CNOT p.1 p.2)) := by
  induction ps with
  | nil => intro c _ _; simp [entangler]
  | cons p ps ih =>
    intro c hc hp
    obtain ⟨a, b⟩ := p
    unfold entangler
    rw [Circuit.add_gate (i := .CNOT a b) trivial (by rw [hc]; exact (goodPair_ok (hp (a, b) (by simp)) 0).1)]
    simp only [bind, Except.bind]
    rw [ih _ (by exact hc) fun q h => hp q (by simp [h]), Circuit.app_app]; rfl

theorem entangler_bad {n : ℕ} (ps : List (ℕ × ℕ)) : ∀ (c : Circuit), c.active = Finset.range n → (∃ p ∈ ps, ¬ GoodPair n p) →
    entangler c ps = .error .assertionError := by
  induction ps with
  | nil => intro c _ h; simp at h
  | cons p ps ih =>
    intro c hc hp
    obtain ⟨a, b⟩ := p
    unfold entangler
    by_cases hg : GoodPair n (a, b)
    · rw [Circuit.add_gate (i := .CNOT a b) trivial (by rw [hc]; exact (goodPair_ok hg 0).1)]
      simp only [bind, Except.bind]
      refine ih _ hc ?_
      obtain ⟨p, h, h'⟩ := hp
      rcases List.mem_cons.1 h with rfl | h
      · exact absurd hg h'
      · exact ⟨p, h, h'⟩
    · unfold Circuit.add
      rw [if_neg (by rw [hc]; simpa [Circuit.instrOk, GoodPair] using hg)]
      rfl

theorem entanglerRzz_ok (env : RandEnv) {n : ℕ} (ps : List (ℕ × ℕ)) : ∀ (c : Circuit) (k : ℕ), c.active = Finset.range n → (∀ p ∈ ps, GoodPair n p) →
    entanglerRzz env c k ps = .ok (c.app (ps.mapIdx fun i p => .RZZ p.1 p.2 (env.random (k + i))), k + ps.length) := by
  induction ps with
  | nil => intro c k _ _; simp [entanglerRzz]
  | cons p ps ih =>
    intro c k hc hp
    obtain ⟨a, b⟩ := p
    unfold entanglerRzz
    rw [Circuit.add_gate (i := .RZZ a b (env.random k)) trivial (by rw [hc]; exact (goodPair_ok (hp (a, b) (by simp)) _).2.2.1)]
    simp only [bind, Except.bind]
    rw [ih _ _ (by exact hc) fun q h => hp q (by simp [h]), Circuit.app_app]
    simp [List.mapIdx_cons, Nat.add_assoc, Nat.add_comm, Nat.add_left_comm]

/-- A rotation by an angle in `[0, π)` (in units of π) of each qubit, by `gate`. -/
def RotLayer (n : ℕ) (gate : ℕ → ℝ → Instr) (l : List Instr) : Prop :=
  ∃ a : ℕ → ℝ, (∀ q, 0 ≤ a q ∧ a q < 1) ∧ l = (List.range n).map fun q => gate q (a q)

/-- `RX` and `RZ` rotations by angles in `[0, π)` of each qubit. -/
def MidLayer (n : ℕ) (l : List Instr) : Prop :=
  ∃ a b : ℕ → ℝ, (∀ q, (0 ≤ a q ∧ a q < 1) ∧ 0 ≤ b q ∧ b q < 1) ∧ l = (List.range n).flatMap fun q => [.RX q (a q), .RZ q (b q)]

/-- CNOT gates, or RZZ gates by angles in `[0, π)`, on each pair. -/
def EntLayer (useRzz : Bool) (pairs : List (ℕ × ℕ)) (l : List Instr) : Prop :=
  if useRzz then ∃ a : ℕ → ℝ, (∀ i, 0 ≤ a i ∧ a i < 1) ∧ l = pairs.mapIdx fun i p => .RZZ p.1 p.2 (a i)
  else l = pairs.map fun p => .CNOT p.1 p.2

/-- The documented shape of `rand_gate`: `RX` rotations, CNOT gates on the pairs `first`, `layers` times rotations and entangling gates on the pairs
`next`, `RZ` rotations. -/
def IsRandGate (n layers : ℕ) (first next : List (ℕ × ℕ)) (useRzz : Bool) (l : List Instr) : Prop :=
  ∃ (r0 r1 : List Instr) (mids : List (List Instr)), l = r0 ++ first.map (fun p => .CNOT p.1 p.2) ++ mids.flatten ++ r1 ∧
    RotLayer n .RX r0 ∧ RotLayer n .RZ r1 ∧ mids.length = layers ∧
    ∀ m ∈ mids, ∃ r e, m = r ++ e ∧ MidLayer n r ∧ EntLayer useRzz next e

theorem mapIdx_range {α : Type} (n : ℕ) (f : ℕ → ℕ → α) : (List.range n).mapIdx f = (List.range n).map fun i => f i i := by
  apply List.ext_getElem
  · simp
  · intro i h1 h2; simp

theorem randGateLoop_ok {env : RandEnv} (henv : env.Ok) {n : ℕ} {useRzz : Bool} (d : ℕ) : ∀ (c : Circuit) (k : ℕ) (pairs : PyIterable (ℕ × ℕ)),
    c.active = Finset.range n → (∀ p ∈ pairs.elems, GoodPair n p) → pairs.rest = pairs →
    ∃ (mids : List (List Instr)) (k' : ℕ), randGateLoop env n useRzz c k pairs d = .ok (c.app mids.flatten, k') ∧ mids.length = d ∧
      ∀ m ∈ mids, ∃ r e, m = r ++ e ∧ MidLayer n r ∧ EntLayer useRzz pairs.elems e := by
  induction d with
  | zero => exact fun c k pairs _ _ _ => ⟨[], k, by simp [randGateLoop], rfl, by simp⟩
  | succ d ih =>
    intro c k pairs hc hp hr
    have hm : MidLayer n ((List.range n).mapIdx fun i q => [Instr.RX q (env.random (k + 2 * i)), .RZ q (env.random (k + 2 * i + 1))]).flatten :=
      ⟨fun q => env.random (k + 2 * q), fun q => env.random (k + 2 * q + 1), fun q => ⟨henv.random _, henv.random _⟩, by
        rw [mapIdx_range, List.flatMap_def]⟩
    unfold randGateLoop
    rw [midRotation_ok env _ c k hc fun q hq => List.mem_range.1 hq]
    simp only [bind, Except.bind]
    set c1 := c.app ((List.range n).mapIdx fun i q => [Instr.RX q (env.random (k + 2 * i)), .RZ q (env.random (k + 2 * i + 1))]).flatten
    have hc1 : c1.active = Finset.range n := hc
    cases useRzz with
    | true =>
      rw [if_pos rfl, entanglerRzz_ok env _ c1 _ hc1 hp]
      dsimp only
      obtain ⟨mids, k', h1, h2, h3⟩ := ih (c1.app (pairs.elems.mapIdx fun i p => .RZZ p.1 p.2 (env.random (k + 2 * (List.range n).length + i))))
        (k + 2 * (List.range n).length + pairs.elems.length) pairs hc1 hp hr
      rw [hr, h1]
      refine ⟨_ :: mids, k', by rw [List.flatten_cons, ← Circuit.app_app, ← Circuit.app_app], by simp [h2], ?_⟩
      intro m hm'
      rcases List.mem_cons.1 hm' with rfl | hm'
      · refine ⟨_, _, rfl, hm, ?_⟩
        exact ⟨fun i => env.random (k + 2 * (List.range n).length + i), fun i => henv.random _, rfl⟩
      · exact h3 m hm'
    | false =>
      rw [if_neg (by simp), entangler_ok _ c1 hc1 hp]
      dsimp only
      obtain ⟨mids, k', h1, h2, h3⟩ := ih (c1.app (pairs.elems.map fun p => .CNOT p.1 p.2))
        (k + 2 * (List.range n).length) pairs hc1 hp hr
      rw [hr, h1]
      refine ⟨_ :: mids, k', by rw [List.flatten_cons, ← Circuit.app_app, ← Circuit.app_app], by simp [h2], ?_⟩
      intro m hm'
      rcases List.mem_cons.1 hm' with rfl | hm'
      · exact ⟨_, _, rfl, hm, rfl⟩
      · exact h3 m hm'

theorem randGate_ok {env : RandEnv} (henv : env.Ok) {n depth : ℕ} {pairs : PyIterable (ℕ × ℕ)} {useRzz : Bool}
    (hp : ∀ p ∈ pairs.elems, GoodPair n p) :
    ∃ l, randGate env n depth pairs useRzz = .ok ((Circuit.new n).app l) ∧ IsRandGate n (depth - 1) pairs.elems pairs.rest.elems useRzz l := by
  have hp' : ∀ p ∈ pairs.rest.elems, GoodPair n p := by
    cases pairs with
    | container l => exact hp
    | iterator l => simp [PyIterable.rest, PyIterable.elems]
  have hr : pairs.rest.rest = pairs.rest := by cases pairs <;> rfl
  unfold randGate
  rw [firstRotation_ok env _ (Circuit.new n) 0 rfl fun q hq => List.mem_range.1 hq]
  simp only [bind, Except.bind]
  rw [entangler_ok (n := n) pairs.elems _ (by rfl) hp]
  dsimp only
  obtain ⟨mids, k', h1, h2, h3⟩ := randGateLoop_ok henv (useRzz := useRzz) (depth - 1)
    (((Circuit.new n).app ((List.range n).mapIdx fun i q => .RX q (env.random (0 + i)))).app (pairs.elems.map fun p => .CNOT p.1 p.2))
    (0 + (List.range n).length) pairs.rest rfl hp' hr
  rw [h1]
  dsimp only
  rw [lastRotation_ok env (n := n) _ _ k' (by rfl) fun q hq => List.mem_range.1 hq]
  dsimp only
  simp only [Circuit.app_app, pure, Except.pure]
  refine ⟨_, rfl, _, _, mids, rfl, ?_, ?_, h2, h3⟩
  · exact ⟨fun q => env.random (0 + q), fun q => henv.random _, mapIdx_range n _⟩
  · exact ⟨fun q => env.random (k' + q), fun q => henv.random _, mapIdx_range n _⟩

theorem IsRandGate.gates {n layers : ℕ} {first next : List (ℕ × ℕ)} {useRzz : Bool} {l : List Instr} (h : IsRandGate n layers first next useRzz l)
    (h1 : ∀ p ∈ first, GoodPair n p) (h2 : ∀ p ∈ next, GoodPair n p) (i : Instr) (hi : i ∈ l) :
    i.isGate ∧ Circuit.instrOk (Finset.range n) i = true ∧ i.Proper ∧ ¬ i.isId := by
  obtain ⟨r0, r1, mids, rfl, ⟨a, -, rfl⟩, ⟨b, -, rfl⟩, -, hm⟩ := h
  simp only [List.mem_append, List.mem_map, List.mem_flatten] at hi
  rcases hi with ((⟨q, hq, rfl⟩ | ⟨p, hp, rfl⟩) | ⟨m, hmem, hi⟩) | ⟨q, hq, rfl⟩
  · simp [Instr.isGate, Circuit.instrOk, Instr.Proper, Instr.isId, List.mem_range.1 hq]
  · have g := h1 p hp
    exact ⟨trivial, (goodPair_ok g 0).1, g.2.2, id⟩
  · obtain ⟨r, e, rfl, ⟨a, b, -, rfl⟩, he⟩ := hm m hmem
    rcases List.mem_append.1 hi with hi | hi
    · obtain ⟨q, hq, hi⟩ := List.mem_flatMap.1 hi
      simp only [List.mem_cons, List.not_mem_nil, or_false] at hi
      rcases hi with rfl | rfl <;> simp [Instr.isGate, Circuit.instrOk, Instr.Proper, Instr.isId, List.mem_range.1 hq]
    · cases useRzz with
      | true =>
        obtain ⟨a, -, rfl⟩ := he
        obtain ⟨j, hj, rfl⟩ := List.mem_mapIdx.1 hi
        have g := h2 _ (List.getElem_mem hj)
        exact ⟨trivial, (goodPair_ok g _).2.2.1, g.2.2, id⟩
      | false =>
        simp only [EntLayer, Bool.false_eq_true, if_false] at he
        subst he
        obtain ⟨p, hp, rfl⟩ := List.mem_map.1 hi
        have g := h2 p hp
        exact ⟨trivial, (goodPair_ok g 0).1, g.2.2, id⟩
  · simp [Instr.isGate, Circuit.instrOk, Instr.Proper, Instr.isId, List.mem_range.1 hq]

/-- **C66** `rand_gate`, when `pairs` can be iterated again: for pairs of different existing qubits the call succeeds, whatever the generator answers, and
the circuit has the documented layers, the entangling gates being on the given pairs in every layer. -/
theorem C66_rand_gate (env : RandEnv) (henv : env.Ok) (n depth : ℕ) (pairs : List (ℕ × ℕ)) (useRzz : Bool) (hp : ∀ p ∈ pairs, GoodPair n p) :
    ∃ c, randGate env n depth (.container pairs) useRzz = .ok c ∧ c.Built ∧ c.width = n ∧ c.active = Finset.range n ∧
      (∀ i ∈ c.instrs, i.isGate ∧ i.Proper ∧ ¬ i.isId) ∧ IsRandGate n (depth - 1) pairs pairs useRzz c.instrs := by
  obtain ⟨l, h1, h2⟩ := randGate_ok henv (depth := depth) (pairs := .container pairs) (useRzz := useRzz) hp
  have hg := h2.gates hp hp
  have e : ((Circuit.new n).app l).instrs = l := by simp [Circuit.new]
  refine ⟨_, h1, Circuit.app_built fun i hi => ⟨(hg i hi).1, (hg i hi).2.1⟩, rfl, rfl, ?_, by rw [e]; exact h2⟩
  rw [e]
  exact fun i hi => ⟨(hg i hi).1, (hg i hi).2.2⟩

/-- **C66** A pair of equal or non-existing qubits is refused. -/
theorem C66_rand_gate_refused (env : RandEnv) (n depth : ℕ) (pairs : PyIterable (ℕ × ℕ)) (useRzz : Bool)
    (hp : ∃ p ∈ pairs.elems, ¬ GoodPair n p) : randGate env n depth pairs useRzz = .error .assertionError := by
  unfold randGate
  rw [firstRotation_ok env _ (Circuit.new n) 0 rfl fun q hq => List.mem_range.1 hq]
  simp only [bind, Except.bind]
  rw [entangler_bad (n := n) pairs.elems _ (by rfl) hp]

/-- **C66 (a defect).** When `pairs` is an iterator (it is annotated `Iterable`), it is exhausted by the first layer: the other layers have no entangling
gate. -/
theorem C66_rand_gate_iterator (env : RandEnv) (henv : env.Ok) (n depth : ℕ) (pairs : List (ℕ × ℕ)) (useRzz : Bool) (hp : ∀ p ∈ pairs, GoodPair n p) :
    ∃ c, randGate env n depth (.iterator pairs) useRzz = .ok c ∧ IsRandGate n (depth - 1) pairs [] useRzz c.instrs ∧
      (pairs ≠ [] → 2 ≤ depth → ¬ IsRandGate n (depth - 1) pairs pairs useRzz c.instrs) := by
  obtain ⟨l, h1, h2⟩ := randGate_ok henv (depth := depth) (pairs := .iterator pairs) (useRzz := useRzz) hp
  have e : ((Circuit.new n).app l).instrs = l := by simp [Circuit.new]
  refine ⟨_, h1, by rw [e]; exact h2, ?_⟩
  rw [e]
  intro hne hd h3
  have len : ∀ next, IsRandGate n (depth - 1) pairs next useRzz l → l.length = 2 * n + pairs.length + (depth - 1) * (2 * n + next.length) := by
    rintro next ⟨r0, r1, mids, rfl, ⟨a, -, rfl⟩, ⟨b, -, rfl⟩, hl, hm⟩
    have hm' : ∀ m ∈ mids, m.length = 2 * n + next.length := by
      intro m hmem
      obtain ⟨r, e, rfl, ⟨a, b, -, rfl⟩, he⟩ := hm m hmem
      have : e.length = next.length := by
        cases useRzz with
        | true => obtain ⟨a, -, rfl⟩ := he; simp
        | false => simp only [EntLayer, Bool.false_eq_true, if_false] at he; subst he; simp
      rw [List.length_append, this, List.length_flatMap]
      simp [Nat.mul_comm]
    have : mids.flatten.length = (depth - 1) * (2 * n + next.length) := by
      rw [← hl, List.length_flatten]
      clear hl hm h1 h2 h3 e
      induction mids with
      | nil => simp
      | cons m mids ih =>
        rw [List.map_cons, List.sum_cons, hm' m (by simp), ih fun m h => hm' m (by simp [h]), List.length_cons, Nat.add_mul]; omega
    simp only [List.length_append, List.length_map, List.length_range, this]
    omega
  have h4 := len _ h2
  have h5 := len _ h3
  have h6 : (depth - 1) * (2 * n + ([] : List (ℕ × ℕ)).length) = (depth - 1) * (2 * n + pairs.length) := by
    have : ((PyIterable.iterator pairs).rest.elems).length = 0 := rfl
    simp only [PyIterable.elems, PyIterable.rest] at h4
    simp only [List.length_nil] at h4 ⊢
    omega
  have h7 := Nat.eq_of_mul_eq_mul_left (by omega) h6
  have : pairs.length = 0 := by simpa using h7.symm
  exact hne (List.length_eq_zero_iff.1 this)

/-- Two layers on three qubits. -/
example : ∃ c, randGate exRandEnv 3 2 (.container [(0, 1), (1, 2)]) true = .ok c ∧
    c.instrs = [.RX 0 0, .RX 1 0, .RX 2 0, .CNOT 0 1, .CNOT 1 2, .RX 0 0, .RZ 0 0, .RX 1 0, .RZ 1 0, .RX 2 0, .RZ 2 0, .RZZ 0 1 0, .RZZ 1 2 0,
      .RZ 0 0, .RZ 1 0, .RZ 2 0] := by
  refine ⟨(Circuit.new 3).app [.RX 0 0, .RX 1 0, .RX 2 0, .CNOT 0 1, .CNOT 1 2, .RX 0 0, .RZ 0 0, .RX 1 0, .RZ 1 0, .RX 2 0, .RZ 2 0, .RZZ 0 1 0,
    .RZZ 1 2 0, .RZ 0 0, .RZ 1 0, .RZ 2 0], ?_, rfl⟩
  rfl

end Graphix
