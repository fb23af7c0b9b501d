import Verif.Model.Readout
import Verif.Props.EndToEnd

/-!
# Property C60: operators, expectation values, fidelities and dictionaries of state vectors
-/

namespace Graphix

/-! ### `evolve` and `expectation_value` -/

/-- **C60** `evolve` applies the operator to the qubits in the given order, whatever their number and their positions. -/
theorem C60_evolve (sv : Statevector) (l : List ℕ) (hl : l.Nodup) (hlen : l.length = sv.nqubit) (op : NpMat) (qs nodes : List ℕ)
    (hsize : op.rows * op.cols = 2 ^ (2 * nodes.length)) (h : qs.map (fun q => l[q]?) = nodes.map some) (hn : nodes.Nodup) :
    ∃ sv', sv.evolve op qs = .ok sv' ∧ sv'.nqubit = sv.nqubit ∧ absState l sv'.psi = opN op.bits nodes (absState l sv.psi) := by
  obtain ⟨sv', h1, h2, -, h3⟩ := evolve_abs hl hlen op hsize h hn
  exact ⟨sv', h1, h2, h3⟩

/-- **C60** `expectation_value` of a normalised state is `⟨ψ|O|ψ⟩`. -/
theorem C60_expectation_value (sv : Statevector) (l : List ℕ) (hl : l.Nodup) (hlen : l.length = sv.nqubit) (hψ : normSq sv.nqubit sv.psi = 1)
    (op : NpMat) (qs nodes : List ℕ) (hsize : op.rows * op.cols = 2 ^ (2 * nodes.length))
    (h : qs.map (fun q => l[q]?) = nodes.map some) (hn : nodes.Nodup) :
    sv.expectationValue op qs = .ok (∑ S ∈ l.toFinset.powerset,
      star (absState l sv.psi (indB S)) * opN op.bits nodes (absState l sv.psi) (indB S)) := by
  obtain ⟨sv', h1, -, -, h3⟩ := evolve_abs (sv := ⟨sv.psi, sv.nqubit, sv.nqubit⟩) hl hlen op hsize h hn
  unfold Statevector.expectationValue
  rw [if_neg (by simpa using hψ), h1]
  simp only [bind, Except.bind, pure, Except.pure]
  congr 1
  rw [← hlen, sum_range_enc hl]
  refine Finset.sum_congr rfl fun S _ => ?_
  rw [← h3]
  rfl

theorem nodes_mem {l qs nodes : List ℕ} (h : qs.map (fun q => l[q]?) = nodes.map some) : ∀ n ∈ nodes, n ∈ l := by
  intro n hn
  have : some n ∈ qs.map (fun q => l[q]?) := by rw [h]; exact List.mem_map_of_mem hn
  obtain ⟨q, -, hq⟩ := List.mem_map.1 this
  exact List.mem_of_getElem? hq

/-- **C60** The expectation value of a Hermitian operator is real. -/
theorem C60_expectation_hermitian (sv : Statevector) (l : List ℕ) (hl : l.Nodup) (hlen : l.length = sv.nqubit) (hψ : normSq sv.nqubit sv.psi = 1)
    (op : NpMat) (qs nodes : List ℕ) (hsize : op.rows * op.cols = 2 ^ (2 * nodes.length))
    (h : qs.map (fun q => l[q]?) = nodes.map some) (hn : nodes.Nodup) (hop : ∀ i j, star (op.entry i j) = op.entry j i) :
    ∃ x : ℝ, sv.expectationValue op qs = .ok (x : ℂ) := by
  rw [C60_expectation_value sv l hl hlen hψ op qs nodes hsize h hn]
  set ψ := absState l sv.psi
  set X := ∑ S ∈ l.toFinset.powerset, star (ψ (indB S)) * opN op.bits nodes ψ (indB S) with hX
  have e : X = ∑ W ∈ (l.toFinset \ nodes.toFinset).powerset, ∑ u ∈ allBits nodes.length, ∑ s ∈ allBits nodes.length,
      star (ψ (setBits (indB W) nodes u)) * op.bits u s * ψ (setBits (indB W) nodes s) := by
    rw [hX, sum_powerset_setBits nodes l.toFinset hn (fun n hm => by simpa using nodes_mem h n hm)
      (fun b => star (ψ b) * opN op.bits nodes ψ b)]
    refine Finset.sum_congr rfl fun W _ => Finset.sum_congr rfl fun u hu => ?_
    rw [mem_allBits] at hu
    unfold opN
    rw [Finset.mul_sum]
    refine Finset.sum_congr rfl fun s _ => ?_
    rw [map_setBits hn _ hu, setBits_setBits]; ring
  have hreal : star X = X := by
    rw [e, star_sum]
    refine Finset.sum_congr rfl fun W _ => ?_
    rw [star_sum, Finset.sum_comm]
    simp only [star_sum]
    rw [Finset.sum_comm]
    rw [Finset.sum_comm]
    refine Finset.sum_congr rfl fun u _ => Finset.sum_congr rfl fun s _ => ?_
    simp only [star_mul', star_star, NpMat.bits, hop]; ring
  refine ⟨X.re, ?_⟩
  congr 1
  exact Complex.ext rfl (by simpa using Complex.conj_eq_iff_im.1 hreal)

/-! ### `fidelity` -/

theorem fidelity_defect {n : ℕ} {a b : ℕ → ℂ} (ha : normSq n a = 1) (hb : normSq n b = 1) :
    ∑ i ∈ Finset.range (2 ^ n), Complex.normSq (b i - (∑ i ∈ Finset.range (2 ^ n), star (a i) * b i) * a i) =
      1 - ‖∑ i ∈ Finset.range (2 ^ n), star (a i) * b i‖ ^ 2 := by
  set s := ∑ i ∈ Finset.range (2 ^ n), star (a i) * b i with hs
  apply Complex.ofReal_injective
  push_cast
  have e : ∀ i ∈ Finset.range (2 ^ n), ((Complex.normSq (b i - s * a i) : ℝ) : ℂ) =
      (Complex.normSq (b i) : ℂ) - s * star (star (a i) * b i) - star s * (star (a i) * b i) + s * star s * (Complex.normSq (a i) : ℂ) := by
    intro i _
    simp only [Complex.normSq_eq_conj_mul_self, ← starRingEnd_apply, map_sub, map_mul, Complex.conj_conj]
    ring
  rw [Finset.sum_congr rfl e, Finset.sum_add_distrib, Finset.sum_sub_distrib, Finset.sum_sub_distrib, ← Finset.mul_sum, ← Finset.mul_sum,
    ← Finset.mul_sum, ← star_sum, ← hs, ← Complex.ofReal_sum, ← Complex.ofReal_sum]
  unfold normSq at ha hb
  rw [ha, hb]
  have : ((‖s‖ : ℝ) : ℂ) ^ 2 = s * star s := by
    rw [← Complex.ofReal_pow, ← Complex.normSq_eq_norm_sq, Complex.normSq_eq_conj_mul_self, mul_comm]; rfl
  rw [this]
  push_cast
  ring

/-- **C60** The fidelity of two normalised states of as many qubits is `|⟨ψ|φ⟩|²`; it is between 0 and 1, and it is 1 exactly when the states are equal up to a
global phase. -/
theorem C60_fidelity (sv sv' : Statevector) (hn : sv.nqubit = sv'.nqubit) (h : normSq sv.nqubit sv.psi = 1) (h' : normSq sv'.nqubit sv'.psi = 1) :
    ∃ f, sv.fidelity sv' = .ok f ∧ f = ‖∑ i ∈ Finset.range (2 ^ sv.nqubit), star (sv.psi i) * sv'.psi i‖ ^ 2 ∧ 0 ≤ f ∧ f ≤ 1 ∧
      (f = 1 ↔ ∃ κ : ℂ, ‖κ‖ = 1 ∧ ∀ i < 2 ^ sv.nqubit, sv'.psi i = κ * sv.psi i) := by
  have hd := fidelity_defect h (by rw [hn]; exact h')
  set s := ∑ i ∈ Finset.range (2 ^ sv.nqubit), star (sv.psi i) * sv'.psi i with hs
  refine ⟨‖s‖ ^ 2, ?_, rfl, sq_nonneg _, ?_, ?_⟩
  · unfold Statevector.fidelity
    rw [if_neg (by simpa using hn)]
  · have : 0 ≤ 1 - ‖s‖ ^ 2 := by rw [← hd]; exact Finset.sum_nonneg fun _ _ => Complex.normSq_nonneg _
    linarith
  · constructor
    · intro hf
      refine ⟨s, ?_, ?_⟩
      · nlinarith [norm_nonneg s]
      · rw [hf, sub_self, Finset.sum_eq_zero_iff_of_nonneg (fun _ _ => Complex.normSq_nonneg _)] at hd
        intro i hi
        have := hd i (Finset.mem_range.2 hi)
        rw [Complex.normSq_eq_zero, sub_eq_zero] at this
        exact this
    · rintro ⟨κ, hκ, hi⟩
      have : s = κ := by
        rw [hs]
        have e : ∀ i ∈ Finset.range (2 ^ sv.nqubit), star (sv.psi i) * sv'.psi i = κ * (Complex.normSq (sv.psi i) : ℂ) := by
          intro i hm
          rw [hi i (Finset.mem_range.1 hm), Complex.normSq_eq_conj_mul_self]
          simp only [← starRingEnd_apply]; ring
        rw [Finset.sum_congr rfl e, ← Finset.mul_sum, ← Complex.ofReal_sum]
        unfold normSq at h
        rw [h]; simp
      rw [this, hκ]; norm_num

/-- **C60** The fidelity is symmetric. -/
theorem C60_fidelity_symm (sv sv' : Statevector) (hn : sv.nqubit = sv'.nqubit) : sv.fidelity sv' = sv'.fidelity sv := by
  unfold Statevector.fidelity
  rw [if_neg (by simpa using hn), if_neg (by simpa using hn.symm), hn]
  congr 2
  rw [← norm_star (∑ i ∈ _, star (sv'.psi i) * _), star_sum]
  congr 1
  exact Finset.sum_congr rfl fun i _ => by rw [star_mul', star_star, mul_comm]

/-- **C60** `isclose` is true, whatever the tolerances, for states that are equal up to a global phase; with zero tolerances only for
them. -/
theorem C60_isclose (sv sv' : Statevector) (hn : sv.nqubit = sv'.nqubit) (h : normSq sv.nqubit sv.psi = 1) (h' : normSq sv'.nqubit sv'.psi = 1)
    (rtol atol : ℝ) (hr : 0 ≤ rtol) :
    ∃ b, sv.isclose sv' rtol atol = .ok b ∧ ((∃ κ : ℂ, ‖κ‖ = 1 ∧ ∀ i < 2 ^ sv.nqubit, sv'.psi i = κ * sv.psi i) → b = true) ∧
      (rtol = 0 → atol = 0 → b = true → ∃ κ : ℂ, ‖κ‖ = 1 ∧ ∀ i < 2 ^ sv.nqubit, sv'.psi i = κ * sv.psi i) := by
  obtain ⟨f, h1, -, -, -, h4⟩ := C60_fidelity sv sv' hn h h'
  refine ⟨_, by unfold Statevector.isclose; rw [h1]; rfl, ?_, ?_⟩
  · intro hk
    rw [h4.2 hk]
    simp only [sub_self, abs_zero, abs_one, max_self, mul_one, decide_eq_true_eq]
    exact le_max_of_le_left hr
  · rintro rfl rfl hb
    apply h4.1
    simp only [zero_mul, max_self, decide_eq_true_eq] at hb
    have := abs_eq_zero.1 (le_antisymm hb (abs_nonneg _))
    linarith

/-! ### `to_dict` and `to_prob_dict` -/

/-- The ket of a list of bits: one character per bit. -/
def ketChars (s : List Bool) : List Char := s.map fun x => if x then '1' else '0'

theorem ketChars_inj {s t : List Bool} (h : ketChars s = ketChars t) : s = t := by
  refine List.map_injective_iff.2 ?_ h
  intro x y hxy
  cases x <;> cases y <;> simp_all

theorem toBits_snoc (n i : ℕ) : toBits (n + 1) i = toBits n (i / 2) ++ [decide (i % 2 = 1)] := by
  induction n with
  | zero => simp [toBits, Nat.testBit_zero]
  | succ n ih =>
    rw [toBits, ih, toBits, List.cons_append, Nat.testBit_succ]

theorem zeroPad_snoc (n : ℕ) (s : List Char) (c : Char) : zeroPad (n + 1) (s ++ [c]) = zeroPad n s ++ [c] := by
  unfold zeroPad
  rw [List.length_append, List.length_singleton, Nat.add_sub_add_right, List.append_assoc]

theorem pyBin_snoc {i : ℕ} (h : 2 ≤ i) : pyBin i = pyBin (i / 2) ++ [if i % 2 = 1 then '1' else '0'] := by
  unfold pyBin
  rw [if_neg (by omega), if_neg (by omega), Nat.digits_def' (by norm_num) (by omega)]
  simp

theorem zeroPad_bin (n : ℕ) : ∀ i, i < 2 ^ (n + 1) → zeroPad (n + 1) (pyBin i) = ketChars (toBits (n + 1) i) := by
  induction n with
  | zero =>
    intro i hi
    have : i = 0 ∨ i = 1 := by omega
    rcases this with rfl | rfl
    · simp [pyBin, zeroPad, ketChars, toBits]
    · simp [pyBin, zeroPad, ketChars, toBits]
  | succ n ih =>
    intro i hi
    have hi2 : i / 2 < 2 ^ (n + 1) := by rw [pow_succ] at hi; omega
    have hc : (if i % 2 = 1 then '1' else '0') = if decide (i % 2 = 1) then '1' else '0' := by simp
    by_cases h2 : 2 ≤ i
    · rw [toBits_snoc, pyBin_snoc h2, zeroPad_snoc, ih _ hi2]
      simp [ketChars]
    · have : i = 0 ∨ i = 1 := by omega
      rw [toBits_snoc, ketChars, List.map_append, ← ketChars, ← ih _ hi2]
      have hz : i / 2 = 0 := by omega
      rw [hz]
      have hl : ∀ c : Char, zeroPad (n + 1 + 1) [c] = zeroPad (n + 1) ['0'] ++ [c] := by
        intro c
        simp [zeroPad, List.replicate_succ']
      rcases this with rfl | rfl
      · simp only [pyBin, if_true]; rw [hl]; simp
      · rw [show pyBin 1 = ['1'] by simp [pyBin], show pyBin 0 = ['0'] from rfl, hl]; simp

/-- **C60** The string of the `i`-th basis vector of `n ≥ 1` qubits: the bits of the qubits, first qubit first (`MSB`) or last (`LSB`). -/
theorem C60_format (s : List Bool) (hs : s ≠ []) (e : Encoding) :
    formatEncoding s.length (ofBits s) e = if e = .LSB then (ketChars s).reverse else ketChars s := by
  obtain ⟨n, hn⟩ : ∃ n, s.length = n + 1 := ⟨s.length - 1, by have := List.length_pos_iff.2 hs; omega⟩
  unfold formatEncoding
  have := zeroPad_bin n (ofBits s) (by rw [← hn]; exact ofBits_lt s)
  rw [← hn, toBits_ofBits] at this
  simp only [this]

theorem formatEncoding_inj {n i j : ℕ} (hi : i < 2 ^ n) (hj : j < 2 ^ n) {e : Encoding} (h : formatEncoding n i e = formatEncoding n j e) :
    i = j := by
  cases n with
  | zero => simp at hi hj; omega
  | succ n =>
    have key : ∀ i < 2 ^ (n + 1), formatEncoding (n + 1) i e =
        if e = .LSB then (ketChars (toBits (n + 1) i)).reverse else ketChars (toBits (n + 1) i) := by
      intro i hi
      have := C60_format (toBits (n + 1) i) (by intro hc; have := congrArg List.length hc; simp at this) e
      rwa [toBits_length, ofBits_toBits hi] at this
    rw [key i hi, key j hj] at h
    have : toBits (n + 1) i = toBits (n + 1) j := by
      split at h
      · exact ketChars_inj (List.reverse_injective h)
      · exact ketChars_inj h
    rw [← ofBits_toBits hi, this, ofBits_toBits hj]

theorem foldl_set_get {α κ : Type} [DecidableEq κ] (key : ℕ → κ) (val : ℕ → α) : ∀ (l : List ℕ) (d : PyDict κ α),
    (∀ i ∈ l, ∀ j ∈ l, key i = key j → i = j) → (∀ k, (l.foldl (fun d i => d.set (key i) (val i)) d).get? k =
      match l.find? (fun i => key i = k) with | some i => some (val i) | none => d.get? k) := by
  intro l
  induction l with
  | nil => intro d _ k; rfl
  | cons a l ih =>
    intro d hinj k
    rw [List.foldl_cons, ih _ (fun i hi j hj => hinj i (by simp [hi]) j (by simp [hj]))]
    by_cases hk : key a = k
    · rw [List.find?_cons_of_pos (by simpa using hk)]
      cases hf : l.find? (fun i => key i = k) with
      | none => dsimp only; rw [PyDict.get?_set, if_pos hk]
      | some i =>
        dsimp only
        have h1 := List.find?_some hf
        have h2 := List.mem_of_find?_eq_some hf
        simp only [decide_eq_true_eq] at h1
        rw [hinj i (by simp [h2]) a (by simp) (by rw [h1, hk])]
    · rw [List.find?_cons_of_neg (by simpa using hk), PyDict.get?_set, if_neg hk]

theorem foldl_set_keys {α κ : Type} [DecidableEq κ] (key : ℕ → κ) (val : ℕ → α) : ∀ (l : List ℕ) (d : PyDict κ α),
    l.Nodup → (∀ i ∈ l, ∀ j ∈ l, key i = key j → i = j) → (∀ i ∈ l, key i ∉ d.keys) →
    l.foldl (fun d i => d.set (key i) (val i)) d = d ++ l.map fun i => (key i, val i) := by
  intro l
  induction l with
  | nil => intro d _ _ _; simp
  | cons a l ih =>
    intro d hnd hinj hk
    rw [List.nodup_cons] at hnd
    have hset : d.set (key a) (val a) = d ++ [(key a, val a)] := by
      have := hk a (by simp)
      clear ih
      induction d with
      | nil => rfl
      | cons kv d ihd =>
        simp only [PyDict.keys, List.map_cons, List.mem_cons, not_or] at this
        rw [PyDict.set, if_neg (fun hc => this.1 hc.symm), ihd (fun i hi hc => hk i hi (by simp [PyDict.keys] at hc ⊢; exact Or.inr hc)) this.2]
        rfl
    rw [List.foldl_cons, hset, ih _ hnd.2 (fun i hi j hj => hinj i (by simp [hi]) j (by simp [hj]))]
    · simp
    · intro i hi hc
      simp only [PyDict.keys, List.map_append, List.map_cons, List.map_nil, List.mem_append, List.mem_singleton] at hc
      rcases hc with hc | hc
      · exact hk i (by simp [hi]) hc
      · exact hnd.1 (hinj i (by simp [hi]) a (by simp) hc ▸ hi)

open Classical in
theorem toDictMap_eq {α : Type} (sv : Statevector) (f : ℂ → α) (e : Encoding) (rtol atol : ℝ) :
    sv.toDictMap f e rtol atol = ((List.range (2 ^ sv.nqubit)).filter fun i => ¬ (‖sv.psi i‖ ≤ atol)).map
      fun i => (formatEncoding sv.nqubit i e, f (sv.psi i)) := by
  unfold Statevector.toDictMap
  simp only [mul_zero, add_zero]
  rw [foldl_set_keys (fun i => formatEncoding sv.nqubit i e) (fun i => f (sv.psi i)) _ [] (List.nodup_range.filter _)]
  · simp
  · intro i hi j hj h
    rw [List.mem_filter, List.mem_range] at hi hj
    exact formatEncoding_inj hi.1 hj.1 h
  · intro i _; simp [PyDict.keys]

/-- **C60** `to_dict` and `to_prob_dict`: in a register `l` of at least one qubit, the entry of the ket that gives the bit `b n` to each
node `n` (the first qubit first, or last for `LSB`) is (the value of `f` at) the amplitude of `b`, unless this amplitude is at most `atol` in
modulus, in which case there is no entry; and there are no other entries. -/
theorem C60_to_dict {α : Type} (sv : Statevector) (l : List ℕ) (hl : l.Nodup) (hlen : l.length = sv.nqubit) (hne : l ≠ []) (f : ℂ → α)
    (e : Encoding) (rtol atol : ℝ) :
    (∀ b : Basis, (‖absState l sv.psi b‖ ≤ atol → (sv.toDictMap f e rtol atol).get?
        (if e = .LSB then (ketChars (l.map b)).reverse else ketChars (l.map b)) = none) ∧
      (atol < ‖absState l sv.psi b‖ → (sv.toDictMap f e rtol atol).get?
        (if e = .LSB then (ketChars (l.map b)).reverse else ketChars (l.map b)) = some (f (absState l sv.psi b)))) ∧
    (∀ k ∈ (sv.toDictMap f e rtol atol).keys, ∃ b : Basis, k = if e = .LSB then (ketChars (l.map b)).reverse else ketChars (l.map b)) ∧
    (sv.toDictMap f e rtol atol).keys.Nodup := by
  classical
  have fmt : ∀ b : Basis, (if e = .LSB then (ketChars (l.map b)).reverse else ketChars (l.map b)) = formatEncoding sv.nqubit (enc l b) e := by
    intro b
    have := C60_format (l.map b) (by simpa using hne) e
    rw [List.length_map, ofBits_map, hlen] at this
    rw [this]
  have hkeys : (sv.toDictMap f e rtol atol).keys = ((List.range (2 ^ sv.nqubit)).filter fun i => ¬ (‖sv.psi i‖ ≤ atol)).map
      fun i => formatEncoding sv.nqubit i e := by
    rw [toDictMap_eq]; simp [PyDict.keys]
  have hnd : (sv.toDictMap f e rtol atol).keys.Nodup := by
    rw [hkeys]
    refine List.Nodup.map_on ?_ (List.nodup_range.filter _)
    intro i hi j hj h
    rw [List.mem_filter, List.mem_range] at hi hj
    exact formatEncoding_inj hi.1 hj.1 h
  refine ⟨fun b => ⟨fun hb => ?_, fun hb => ?_⟩, fun k hk => ?_, hnd⟩
  · rw [fmt, PyDict.get?_eq_none_iff, hkeys]
    intro hc
    obtain ⟨i, hi, h⟩ := List.mem_map.1 hc
    rw [List.mem_filter, List.mem_range] at hi
    have := formatEncoding_inj hi.1 (by rw [← hlen]; exact enc_lt l b) h
    subst this
    simp only [decide_eq_true_eq] at hi
    exact hi.2 hb
  · rw [fmt]
    refine PyDict.get?_of_mem hnd ?_
    rw [toDictMap_eq]
    refine List.mem_map.2 ⟨enc l b, ?_, rfl⟩
    rw [List.mem_filter, List.mem_range]
    exact ⟨by rw [← hlen]; exact enc_lt l b, decide_eq_true (not_le.2 hb)⟩
  · rw [hkeys] at hk
    obtain ⟨i, hi, rfl⟩ := List.mem_map.1 hk
    rw [List.mem_filter, List.mem_range, ← hlen] at hi
    obtain ⟨b, rfl⟩ := enc_surj hl i hi.1
    exact ⟨b, (fmt b).symm⟩

/-- **C60** The values of `to_prob_dict` of a normalised state sum to 1, up to `atol²` for each basis vector left out. -/
theorem C60_prob_sum (sv : Statevector) (h : normSq sv.nqubit sv.psi = 1) (e : Encoding) (rtol atol : ℝ) (ha : 0 ≤ atol) :
    ((sv.toProbDict e rtol atol).map Prod.snd).sum ≤ 1 ∧
      1 - 2 ^ sv.nqubit * atol ^ 2 ≤ ((sv.toProbDict e rtol atol).map Prod.snd).sum := by
  classical
  unfold Statevector.toProbDict
  rw [toDictMap_eq, List.map_map]
  have e1 : ∀ N, ((((List.range N).filter fun i => ¬ (‖sv.psi i‖ ≤ atol)).map
      (Prod.snd ∘ fun i => (formatEncoding sv.nqubit i e, ‖sv.psi i‖ ^ 2))).sum : ℝ) =
      ∑ i ∈ Finset.range N, if ‖sv.psi i‖ ≤ atol then 0 else ‖sv.psi i‖ ^ 2 := by
    intro N
    induction N with
    | zero => simp
    | succ N ih =>
      rw [List.range_succ, List.filter_append, List.map_append, List.sum_append, ih, Finset.sum_range_succ]
      congr 1
      by_cases hN : ‖sv.psi N‖ ≤ atol
      · simp [hN]
      · rw [if_neg hN, List.filter_cons_of_pos (by simpa using lt_of_not_ge hN)]; simp
  rw [e1]
  have hs : ∑ i ∈ Finset.range (2 ^ sv.nqubit), ‖sv.psi i‖ ^ 2 = 1 := by
    rw [← h]; unfold normSq
    exact Finset.sum_congr rfl fun i _ => (Complex.normSq_eq_norm_sq _).symm
  constructor
  · rw [← hs]
    refine Finset.sum_le_sum fun i _ => ?_
    split
    · positivity
    · exact le_rfl
  · have : ∑ i ∈ Finset.range (2 ^ sv.nqubit), (‖sv.psi i‖ ^ 2 - atol ^ 2) ≤
        ∑ i ∈ Finset.range (2 ^ sv.nqubit), if ‖sv.psi i‖ ≤ atol then 0 else ‖sv.psi i‖ ^ 2 := by
      refine Finset.sum_le_sum fun i _ => ?_
      split
      · rename_i hi
        have := pow_le_pow_left₀ (norm_nonneg _) hi 2
        linarith
      · have := sq_nonneg atol; linarith
    rw [Finset.sum_sub_distrib, hs] at this
    simpa using this

/-- **C60** Without qubits the single key is `"0"`, not the empty ket. -/
theorem C60_no_qubits (e : Encoding) : formatEncoding 0 0 e = ['0'] := by cases e <;> rfl

/-! ### Examples -/

example : formatEncoding 3 1 .MSB = ['0', '0', '1'] ∧ formatEncoding 3 1 .LSB = ['1', '0', '0'] := by
  have h := C60_format [false, false, true] (by simp)
  exact ⟨h .MSB, h .LSB⟩

example : ∃ sv : Statevector, sv.nqubit = 2 ∧ normSq sv.nqubit sv.psi = 1 ∧ (sv.toDict .LSB 0 0).get? ['1', '0'] = some 1 := by
  refine ⟨⟨fun i => if i = 1 then 1 else 0, 2, 2⟩, rfl, ?_, ?_⟩
  · simp [normSq, Finset.sum_range_succ]
  · have := ((C60_to_dict (α := ℂ) ⟨fun i => if i = 1 then 1 else 0, 2, 2⟩ [0, 1] (by simp) rfl (by simp) id .LSB 0 0).1
      (fun n => decide (n = 1))).2 (by simp [absState, enc])
    simpa [ketChars, absState, enc, Statevector.toDict] using this

end Graphix
