import Mathlib.Data.Finset.SymmDiff
import Mathlib.Data.Finset.Card
import Mathlib.Algebra.Group.Nat.Even
import Mathlib.Algebra.Ring.Parity
import Mathlib.Data.Finset.Union
import Mathlib.Tactic.Ring

/-!
# Parity of measurement outcomes (specification)

A correction domain is a finite set of nodes; the correction is applied iff an odd number of the
nodes in the domain were measured with outcome 1 (`true`).
-/

namespace Graphix

/-- The XOR of the outcomes `r` over the domain `s`. -/
def parity (r : ℕ → Bool) (s : Finset ℕ) : Bool := decide (Odd (s.filter (fun n => r n = true)).card)

theorem parity_empty (r : ℕ → Bool) : parity r ∅ = false := by simp [parity]

theorem parity_singleton (r : ℕ → Bool) (n : ℕ) : parity r {n} = r n := by
  unfold parity
  rw [Finset.filter_singleton]
  cases h : r n <;> simp

theorem card_symmDiff_add (A B : Finset ℕ) :
    (symmDiff A B).card + 2 * (A ∩ B).card = A.card + B.card := by
  have h1 : (symmDiff A B).card = (A \ B).card + (B \ A).card := by
    rw [symmDiff_def, Finset.sup_eq_union, Finset.card_union_of_disjoint]
    exact disjoint_sdiff_sdiff
  have h2 := Finset.card_sdiff_add_card_inter A B
  have h3 := Finset.card_sdiff_add_card_inter B A
  rw [Finset.inter_comm B A] at h3
  omega

theorem parity_symmDiff (r : ℕ → Bool) (s t : Finset ℕ) :
    parity r (symmDiff s t) = Bool.xor (parity r s) (parity r t) := by
  have hf : (symmDiff s t).filter (fun n => r n = true) =
      symmDiff (s.filter (fun n => r n = true)) (t.filter (fun n => r n = true)) := by
    ext x
    simp only [Finset.mem_filter, Finset.mem_symmDiff]
    tauto
  have hc := card_symmDiff_add (s.filter (fun n => r n = true)) (t.filter (fun n => r n = true))
  unfold parity
  rw [hf]
  have : Odd (symmDiff (s.filter (fun n => r n = true)) (t.filter (fun n => r n = true))).card ↔
      ¬ (Odd (s.filter (fun n => r n = true)).card ↔ Odd (t.filter (fun n => r n = true)).card) := by
    simp only [Nat.odd_iff]
    omega
  by_cases h1 : Odd (s.filter (fun n => r n = true)).card <;>
    by_cases h2 : Odd (t.filter (fun n => r n = true)).card <;> simp [this, h1, h2]

theorem parity_congr {r r' : ℕ → Bool} {s : Finset ℕ} (h : ∀ n ∈ s, r n = r' n) :
    parity r s = parity r' s := by
  unfold parity
  rw [Finset.filter_congr (fun n hn => by rw [h n hn])]

end Graphix
