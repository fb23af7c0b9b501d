import Verif.Proofs.ExtractMap
import Verif.Spec.Wires
import Verif.Props.Pexp

/-! From nodes to qubits. -/

namespace Graphix
namespace Extract

open Function

/-- The inverse of `onWires`. -/
noncomputable def offWires (l : List ℕ) (Φ : QState) : QState := fun b => Φ fun v => b (l.idxOf v)

theorem onWires_update {l : List ℕ} (hl : l.Nodup) {k v : ℕ} (hk : l[k]? = some v) (b : Basis) (c : Bool) :
    (fun k' => (l[k']?).elim false (update b v c)) = update (fun k' => (l[k']?).elim false b) k c := by
  funext k'
  by_cases h : k' = k
  · subst h; simp [hk]
  · rw [update_of_ne h]
    cases hv : l[k']? with
    | none => rfl
    | some v' =>
      have : v' ≠ v := by
        rintro rfl
        obtain ⟨h1, e1⟩ := List.getElem?_eq_some_iff.1 hk
        obtain ⟨h2, e2⟩ := List.getElem?_eq_some_iff.1 hv
        exact h ((List.Nodup.getElem_inj_iff hl).1 (e2.trans e1.symm))
      simp [this]

theorem onWires_op1 {l : List ℕ} (hl : l.Nodup) {k v : ℕ} (hk : l[k]? = some v) (U : Mat2) (ψ : QState) :
    onWires l (op1 U k ψ) = op1 U v (onWires l ψ) := by
  funext b
  unfold onWires op1
  show U ((l[k]?).elim false b) false * _ + U ((l[k]?).elim false b) true * _ =
    U (b v) false * ψ (fun k' => (l[k']?).elim false (update b v false)) + U (b v) true * ψ (fun k' => (l[k']?).elim false (update b v true))
  rw [onWires_update hl hk, onWires_update hl hk, hk]
  rfl

theorem onWires_onNodes (l : List ℕ) (ψ : QState) : OnNodes l (onWires l ψ) := by
  intro b b' h
  unfold onWires
  congr 1
  funext k
  cases hv : l[k]? with
  | none => rfl
  | some v => exact h v (List.mem_of_getElem? hv)

theorem onWires_smul (l : List ℕ) (c : ℂ) (ψ : QState) : onWires l (c • ψ) = c • onWires l ψ := rfl

theorem offWires_op1 {l : List ℕ} {v : ℕ} (hv : v ∈ l) (U : Mat2) (Φ : QState) :
    offWires l (op1 U v Φ) = op1 U (l.idxOf v) (offWires l Φ) := by
  funext b
  unfold offWires op1
  have : ∀ c, update (fun v => b (l.idxOf v)) v c = fun v' => update b (l.idxOf v) c (l.idxOf v') := by
    intro c
    funext v'
    by_cases h : v' = v
    · subst h; simp
    · rw [update_of_ne h, update_of_ne]
      intro h2
      exact h ((List.idxOf_inj hv).1 h2.symm).symm
  rw [this, this]

theorem offWires_locOps {l : List ℕ} (F G : ℕ → Mat2) (L : List ℕ) (hL : ∀ v ∈ L, v ∈ l ∧ G (l.idxOf v) = F v) (Φ : QState) :
    offWires l (locOps F L Φ) = locOps G (L.map l.idxOf) (offWires l Φ) := by
  induction L with
  | nil => rfl
  | cons v L ih =>
    rw [List.map_cons]
    unfold locOps
    rw [offWires_op1 (hL v (by simp)).1, ih fun w hw => hL w (by simp [hw]), (hL v (by simp)).2]

theorem map_idxOf {l : List ℕ} (hl : l.Nodup) : l.map l.idxOf = List.range l.length := by
  apply List.ext_getElem
  · simp
  · intro i h1 h2
    simp only [List.getElem_map, List.getElem_range]
    exact hl.idxOf_getElem _ _

theorem onWires_offWires {l : List ℕ} {Φ : QState} (hΦ : OnNodes l Φ) : onWires l (offWires l Φ) = Φ := by
  funext b
  unfold onWires offWires
  apply hΦ
  intro v hv
  show (l[l.idxOf v]?).elim false b = b v
  rw [List.getElem?_idxOf hv]; rfl

theorem offWires_onNodes {l : List ℕ} {Φ : QState} (hΦ : OnNodes l Φ) : OnNodes (List.range l.length) (offWires l Φ) := by
  intro b b' h
  apply hΦ
  intro v hv
  exact h _ (by simpa using List.idxOf_lt_length_iff.2 hv)

/-- The operator of a set on the outputs is the operator of its Pauli string. -/
theorem offWires_dMat {og : OpenGraph} (hv : og.Valid) {S : Finset ℕ} {p : PauliString} {s : Bool} (hdim : p.dim = og.outputs.length)
    (hmat : ∀ v ∈ og.outputs, p.mat (og.outputs.idxOf v) = pMat og S v) (hs : p.sign.toComplex = sgn s) (Φ : QState) :
    offWires og.outputs (sgn s • locOps (dMat og S) (og.nodes.sort (· ≤ ·)) Φ) = p.op (offWires og.outputs Φ) := by
  obtain ⟨-, -, ho, -, hout, -⟩ := og.postInit_ok hv.post
  have h1 : locOps (dMat og S) (og.nodes.sort (· ≤ ·)) Φ = locOps (pMat og S) og.outputs Φ := by
    rw [← Pexp.locOps_filter (dMat og S) (fun w => decide (w ∈ og.outputs)) _ (by
      intro k _ hk
      have : k ∉ og.outputs := by simpa using hk
      unfold dMat
      rw [if_neg this])]
    have hp : ((og.nodes.sort (· ≤ ·)).filter fun w => decide (w ∈ og.outputs)).Perm og.outputs := by
      refine (List.perm_ext_iff_of_nodup ((Finset.sort_nodup _ _).filter _) hout).2 fun x => ?_
      simp only [List.mem_filter, Finset.mem_sort, decide_eq_true_eq]
      exact ⟨fun h => h.2, fun h => ⟨ho (by simpa using h), h⟩⟩
    rw [locOps_perm _ hp ((Finset.sort_nodup _ _).filter _)]
    apply locOps_congr
    intro n hn
    simp [dMat, hn]
  rw [h1]
  have h2 : offWires og.outputs (sgn s • locOps (pMat og S) og.outputs Φ) = sgn s • offWires og.outputs (locOps (pMat og S) og.outputs Φ) := rfl
  rw [h2, offWires_locOps _ p.mat _ (fun v hv => ⟨hv, hmat v hv⟩), map_idxOf hout, locOps_foldr, PauliString.op, hs, hdim]

/-- A state that depends only on the given bits. -/
theorem tMap_onNodes {og : OpenGraph} (hv : og.Valid) (A : List ℕ) {φ : QState} (hφ : OnNodes og.inputs φ) : OnNodes og.outputs (tMap og A φ) := by
  obtain ⟨-, hi, ho, -, -, -⟩ := og.postInit_ok hv.post
  have key : ∀ (l : List ℕ) (χ : QState), (∀ b b' : Basis, (∀ n ∈ og.nodes, b n = b' n) → χ b = χ b') →
      ∀ b b' : Basis, (∀ n ∈ og.nodes, (n ∈ l → n ∈ og.outputs) → b n = b' n) → locOps (braOf og A) l χ b = locOps (braOf og A) l χ b' := by
    intro l χ hχ
    induction l with
    | nil => intro b b' h; exact hχ b b' fun n hn => h n hn (by simp)
    | cons a l ih =>
      intro b b' h
      unfold locOps op1
      have hc : ∀ c, locOps (braOf og A) l χ (update b a c) = locOps (braOf og A) l χ (update b' a c) := by
        intro c
        apply ih
        intro n hn hnl
        by_cases hna : n = a
        · subst hna; simp
        · rw [update_of_ne hna, update_of_ne hna]
          exact h n hn fun hm => hnl (by simpa [hna] using hm)
      rw [hc, hc]
      by_cases hao : a ∈ og.outputs
      · have hba : b a = b' a := h a (ho (by simpa using hao)) fun _ => hao
        rw [hba]
      · have hbr : ∀ x, braOf og A a x = braOf og A a false := by
          intro x; unfold braOf; rw [if_neg hao]; rfl
        rw [hbr (b a), hbr (b' a)]
  intro b b' h
  unfold tMap
  apply key
  · intro b b' h
    rw [czList_apply, czList_apply, prepList_apply, prepList_apply, hφ b b' fun n hn => h n (hi (by simpa using hn))]
    congr 2
    apply xorl_congr
    intro e he
    obtain ⟨h1, h2⟩ := hv.edge_mem e.1 e.2 he
    rw [h _ h1, h _ h2]
  · intro n hn hno
    exact h n (hno (by simpa using hn))

/-- The map of the open graph on qubits, with the planar measurements outside `A` at angle 0. -/
noncomputable def wMap (og : OpenGraph) (A : List ℕ) (ψ : QState) : QState := offWires og.outputs (tMap og A (onWires og.inputs ψ))

theorem inputs_absent (og : OpenGraph) (ψ : QState) : Absent (og.nodes \ og.inputs.toFinset) (onWires og.inputs ψ) :=
  (onWires_onNodes _ _).absent fun n hn => by simp [hn]

theorem onWires_wMap {og : OpenGraph} (hv : og.Valid) (A : List ℕ) (ψ : QState) :
    onWires og.outputs (wMap og A ψ) = tMap og A (onWires og.inputs ψ) :=
  onWires_offWires (tMap_onNodes hv A (onWires_onNodes _ _))

theorem wMap_onNodes {og : OpenGraph} (hv : og.Valid) (A : List ℕ) (ψ : QState) :
    OnNodes (List.range og.outputs.length) (wMap og A ψ) := offWires_onNodes (tMap_onNodes hv A (onWires_onNodes _ _))

end Extract
end Graphix
