import Verif.Model.Flow

/-!
# Model of `graphix/flow/_find_cflow.py`
-/

namespace Graphix

/-- The sets and the dictionary that the inner loop of `find_cflow` updates. `corrected_nodes_new` and `curr_layer` always
hold the same nodes. -/
structure CflowRound where
  cf : PyDict ℕ (Finset ℕ)
  currLayer : Finset ℕ
  correctorNew : Finset ℕ

/-- `_find_cflow.py:65-72`: one iteration of the inner loop. -/
def cflowVisit (og : OpenGraph) (corrected : Finset ℕ) (r : CflowRound) (p : ℕ) : Except PyErr CflowRound := do
  let nb ← og.neighbors {p}
  match (nb ∩ (og.nodes \ corrected)).sort (· ≤ ·) with
  | [q] => return ⟨r.cf.set q {p}, insert q r.currLayer, insert p r.correctorNew⟩
  | _ => return r

/-- `_find_cflow.py:65-72`: the inner loop. -/
def cflowRound (og : OpenGraph) (corrected : Finset ℕ) : List ℕ → CflowRound → Except PyErr CflowRound
  | [], r => .ok r
  | p :: l, r => do
    let r ← cflowVisit og corrected r p
    cflowRound og corrected l r

theorem cflowRound_mono {og : OpenGraph} {corrected : Finset ℕ} {l : List ℕ} {r r' : CflowRound}
    (h : cflowRound og corrected l r = .ok r') (hr : r.currLayer ⊆ og.nodes \ corrected) : r'.currLayer ⊆ og.nodes \ corrected := by
  induction l generalizing r with
  | nil => cases h; exact hr
  | cons p l ih =>
    unfold cflowRound at h
    rcases hv : cflowVisit og corrected r p with e | r1
    · rw [hv] at h; cases h
    · rw [hv] at h
      refine ih h ?_
      unfold cflowVisit at hv
      rcases hn : og.neighbors {p} with e | nb
      · rw [hn] at hv; cases hv
      · rw [hn] at hv
        simp only [bind, Except.bind, pure, Except.pure] at hv
        split at hv
        · rename_i q hq
          cases hv
          have : q ∈ nb ∩ (og.nodes \ corrected) := by
            rw [← Finset.mem_sort (r := (· ≤ ·)), hq]; simp
          exact Finset.insert_subset (Finset.mem_inter.1 this).2 hr
        · cases hv; exact hr

/-- `_find_cflow.py:58-82`: the outer loop. -/
def cflowLoop (og : OpenGraph) (ord : SetOrd) (corrected candidates : Finset ℕ) (cf : PyDict ℕ (Finset ℕ))
    (layers : List (Finset ℕ)) : Except PyErr (Option Flow) :=
  if corrected = og.nodes then .ok (some ⟨og, cf, layers⟩)
  else
    match h : cflowRound og corrected (ord 11 layers.length candidates) ⟨cf, ∅, ∅⟩ with
    | .error e => .error e
    | .ok r =>
      if r.currLayer = ∅ then .ok none
      else cflowLoop og ord (corrected ∪ r.currLayer)
        ((candidates \ r.correctorNew) ∪ (r.currLayer ∩ (og.nodes \ og.inputs.toFinset))) r.cf (layers ++ [r.currLayer])
termination_by (og.nodes \ corrected).card
decreasing_by
  have hs := cflowRound_mono h (by simp)
  rename_i hne
  obtain ⟨q, hq⟩ := Finset.nonempty_iff_ne_empty.2 hne
  refine Finset.card_lt_card ⟨Finset.sdiff_subset_sdiff (Finset.Subset.refl _) Finset.subset_union_left, fun hc => ?_⟩
  have := hc (hs hq)
  simp [hq] at this

/-- `_find_cflow.py:44-46`: the check of the planes. -/
def cflowPlanes : List Measurement → Except PyErr Bool
  | [] => .ok true
  | m :: l => do
    let p ← m.toPlane
    if p = .XZ ∨ p = .YZ then return false else cflowPlanes l

/-- `_find_cflow.py:22-82` `find_cflow`. -/
def findCflow (og : OpenGraph) (ord : SetOrd) : Except PyErr (Option Flow) := do
  let ok ← cflowPlanes (og.measurements.map Prod.snd)
  if ¬ ok then return none
  cflowLoop og ord og.outputs.toFinset (og.outputs.toFinset \ og.inputs.toFinset) []
    (if og.outputs ≠ [] then [og.outputs.toFinset] else [])

end Graphix
