import Mathlib.Data.List.Basic
import Mathlib.Data.List.Nodup

/-!
# Python dictionaries

Insertion-ordered association lists with the semantics of CPython's `dict` (language reference 3.7+:
iteration in insertion order; assigning to an existing key keeps its position).
-/

namespace Graphix

/-- A Python `dict`. Keys are distinct in every dict built from `[]` with `set`/`erase`. -/
abbrev PyDict (α β : Type) := List (α × β)

namespace PyDict

variable {α β : Type} [DecidableEq α]

/-- `d.get(k)` -/
def get? (d : PyDict α β) (k : α) : Option β :=
  match d with
  | [] => none
  | (k', v) :: d => if k' = k then some v else get? d k

/-- `d[k] = v` -/
def set (d : PyDict α β) (k : α) (v : β) : PyDict α β :=
  match d with
  | [] => [(k, v)]
  | (k', v') :: d => if k' = k then (k', v) :: d else (k', v') :: set d k v

/-- `d.keys()` -/
def keys (d : PyDict α β) : List α := d.map Prod.fst

/-- `k in d` -/
def contains (d : PyDict α β) (k : α) : Bool := (get? d k).isSome

/-- `del d[k]` (a no-op when the key is absent; callers model the `KeyError`). -/
def erase (d : PyDict α β) (k : α) : PyDict α β :=
  match d with
  | [] => []
  | (k', v') :: d => if k' = k then d else (k', v') :: erase d k

@[simp] theorem get?_nil (k : α) : get? ([] : PyDict α β) k = none := rfl

theorem get?_cons (k' : α) (v : β) (d : PyDict α β) (k : α) :
    get? ((k', v) :: d) k = if k' = k then some v else get? d k := rfl

theorem get?_set (d : PyDict α β) (k : α) (v : β) (k' : α) :
    get? (set d k v) k' = if k = k' then some v else get? d k' := by
  induction d with
  | nil => simp [set, get?]
  | cons x d ih =>
    obtain ⟨a, b⟩ := x
    by_cases h : a = k
    · subst h; by_cases h' : a = k' <;> simp [set, get?, h']
    · by_cases h' : a = k'
      · subst h'; simp [set, get?, h]; intro h2; exact absurd h2.symm h
      · simp [set, get?, h, h', ih]

theorem get?_set_self (d : PyDict α β) (k : α) (v : β) : get? (set d k v) k = some v := by
  simp [get?_set]

theorem get?_set_ne (d : PyDict α β) {k k' : α} (v : β) (h : k ≠ k') :
    get? (set d k v) k' = get? d k' := by
  simp [get?_set, h]

theorem get?_isSome_iff (d : PyDict α β) (k : α) : (get? d k).isSome ↔ k ∈ keys d := by
  induction d with
  | nil => simp [keys]
  | cons x d ih =>
    obtain ⟨a, b⟩ := x
    by_cases h : a = k
    · subst h; simp [get?, keys]
    · simp only [get?, h, if_false, keys, List.map_cons, List.mem_cons]
      rw [ih]; simp [keys, Ne.symm h]

theorem contains_iff (d : PyDict α β) (k : α) : contains d k = true ↔ k ∈ keys d := by
  unfold contains; exact get?_isSome_iff d k

theorem get?_eq_none_iff (d : PyDict α β) (k : α) : get? d k = none ↔ k ∉ keys d := by
  rw [← get?_isSome_iff]; cases get? d k <;> simp

theorem mem_of_get? {d : PyDict α β} {k : α} {v : β} (h : get? d k = some v) : (k, v) ∈ d := by
  induction d with
  | nil => simp at h
  | cons x d ih =>
    obtain ⟨a, b⟩ := x
    by_cases h' : a = k
    · subst h'; simp [get?] at h; simp [h]
    · simp [get?, h'] at h; exact List.mem_cons_of_mem _ (ih h)

theorem get?_of_mem {d : PyDict α β} (hd : (keys d).Nodup) {k : α} {v : β} (h : (k, v) ∈ d) :
    get? d k = some v := by
  induction d with
  | nil => simp at h
  | cons x d ih =>
    obtain ⟨a, b⟩ := x
    simp only [keys, List.map_cons, List.nodup_cons] at hd
    rcases List.mem_cons.1 h with h | h
    · simp at h; simp [get?, h.1, h.2]
    · have : a ≠ k := by
        rintro rfl; exact hd.1 (List.mem_map.2 ⟨_, h, rfl⟩)
      simp [get?, this]; exact ih hd.2 h

theorem keys_set (d : PyDict α β) (k : α) (v : β) :
    keys (set d k v) = if k ∈ keys d then keys d else keys d ++ [k] := by
  induction d with
  | nil => simp [set, keys]
  | cons x d ih =>
    obtain ⟨a, b⟩ := x
    by_cases h : a = k
    · subst h; simp [set, keys]
    · simp only [set, h, if_false]
      simp only [keys, List.map_cons, List.mem_cons, Ne.symm h, false_or] at ih ⊢
      rw [ih]; split <;> simp [*]

theorem keys_set_nodup {d : PyDict α β} (hd : (keys d).Nodup) (k : α) (v : β) :
    (keys (set d k v)).Nodup := by
  rw [keys_set]; split
  · exact hd
  · rename_i h; exact List.nodup_append.2 ⟨hd, by simp, by
      intro a ha b hb; simp at hb; subst hb; rintro rfl; exact h ha⟩

theorem mem_keys_set (d : PyDict α β) (k : α) (v : β) (k' : α) :
    k' ∈ keys (set d k v) ↔ k' = k ∨ k' ∈ keys d := by
  rw [keys_set]; split
  · rename_i h; constructor
    · exact Or.inr
    · rintro (rfl | h'); exacts [h, h']
  · simp [or_comm]

theorem keys_erase (d : PyDict α β) (k : α) : keys (erase d k) = (keys d).erase k := by
  induction d with
  | nil => simp [erase, keys]
  | cons x d ih =>
    obtain ⟨a, b⟩ := x
    by_cases h : a = k
    · subst h; simp [erase, keys]
    · simp only [erase, h, if_false, keys, List.map_cons] at ih ⊢
      rw [ih, List.erase_cons_tail]; simpa using h

theorem get?_erase {d : PyDict α β} (hd : (keys d).Nodup) (k k' : α) :
    get? (erase d k) k' = if k = k' then none else get? d k' := by
  induction d with
  | nil => simp [erase]
  | cons x d ih =>
    obtain ⟨a, b⟩ := x
    simp only [keys, List.map_cons, List.nodup_cons] at hd
    by_cases h : a = k
    · subst h
      simp only [erase, if_true, get?_cons]
      split
      · rename_i h; subst h; exact (get?_eq_none_iff _ _).2 hd.1
      · rfl
    · simp only [erase, h, if_false, get?_cons]
      split
      · rename_i h2; subst h2; simp [Ne.symm h]
      · exact ih hd.2

end PyDict

end Graphix
