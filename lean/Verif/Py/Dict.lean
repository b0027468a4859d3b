/-
Python library notions used by the model: insertion-ordered `dict`, `set.add`,
and the exceptions / process exits that the modelled code can end in.
-/
import Mathlib.Data.List.Basic
import Mathlib.Data.List.Nodup

set_option autoImplicit false

namespace Licant.Py

/-- A Python `dict`: an association list in insertion order.  `d[k] = v` keeps the
position of an existing key, appends otherwise. -/
abbrev Dict (α β : Type*) := List (α × β)

namespace Dict
variable {α β : Type*} [DecidableEq α]

/-- `d.get(k)` -/
def get : Dict α β → α → Option β
  | [], _ => none
  | (k, v) :: d, x => if k = x then some v else get d x

/-- `d[k] = v` -/
def set : Dict α β → α → β → Dict α β
  | [], x, y => [(x, y)]
  | (k, v) :: d, x, y => if k = x then (k, y) :: d else (k, v) :: set d x y

/-- `del d[k]` (no-op if absent) -/
def del : Dict α β → α → Dict α β
  | [], _ => []
  | (k, v) :: d, x => if k = x then d else (k, v) :: del d x

/-- `d.keys()` -/
def keys (d : Dict α β) : List α := d.map (·.1)

/-- `d.update(e)` -/
def update (d e : Dict α β) : Dict α β := e.foldl (fun acc p => acc.set p.1 p.2) d

/-- `k in d` -/
def has (d : Dict α β) (k : α) : Bool := (d.get k).isSome

@[simp] theorem get_nil (x : α) : get ([] : Dict α β) x = none := rfl

theorem get_set (d : Dict α β) (x y : α) (v : β) :
    (d.set x v).get y = if x = y then some v else d.get y := by
  induction d with
  | nil => simp [set, get]
  | cons p d ih =>
    obtain ⟨k, w⟩ := p
    by_cases hk : k = x
    · subst hk; simp only [set, if_true, get]; split <;> rfl
    · simp only [set, hk, if_false, get, ih]
      by_cases hy : k = y
      · subst hy; simp [Ne.symm hk]
      · simp [hy]

@[simp] theorem get_set_self (d : Dict α β) (x : α) (v : β) : (d.set x v).get x = some v := by
  simp [get_set]

theorem get_set_ne (d : Dict α β) {x y : α} (v : β) (h : x ≠ y) :
    (d.set x v).get y = d.get y := by simp [get_set, h]

theorem get_isSome_iff (d : Dict α β) (x : α) : (d.get x).isSome ↔ x ∈ d.keys := by
  induction d with
  | nil => simp [keys]
  | cons p d ih =>
    obtain ⟨k, w⟩ := p
    by_cases hk : k = x
    · subst hk; simp [get, keys]
    · have : x ≠ k := fun h => hk h.symm
      simp only [get, hk, if_false, ih, keys, List.map_cons, List.mem_cons, this, false_or]

theorem get_eq_none_iff (d : Dict α β) (x : α) : d.get x = none ↔ x ∉ d.keys := by
  rw [← get_isSome_iff]; cases d.get x <;> simp

theorem has_iff (d : Dict α β) (x : α) : d.has x = true ↔ x ∈ d.keys := by
  simp [has, get_isSome_iff]

theorem mem_of_get {d : Dict α β} {x : α} {v : β} (h : d.get x = some v) : (x, v) ∈ d := by
  induction d with
  | nil => simp at h
  | cons p d ih =>
    obtain ⟨k, w⟩ := p
    by_cases hk : k = x
    · subst hk; simp [get] at h; simp [h]
    · simp [get, hk] at h; exact List.mem_cons_of_mem _ (ih h)

theorem get_of_mem {d : Dict α β} (hn : d.keys.Nodup) {x : α} {v : β} (h : (x, v) ∈ d) :
    d.get x = some v := by
  induction d with
  | nil => simp at h
  | cons p d ih =>
    obtain ⟨k, w⟩ := p
    simp only [keys, List.map_cons, List.nodup_cons] at hn
    rcases List.mem_cons.1 h with h | h
    · cases h; simp [get]
    · have : k ≠ x := by
        rintro rfl; exact hn.1 (List.mem_map.2 ⟨_, h, rfl⟩)
      simp [get, this]; exact ih hn.2 h

theorem keys_set (d : Dict α β) (x : α) (v : β) :
    (d.set x v).keys = if x ∈ d.keys then d.keys else d.keys ++ [x] := by
  induction d with
  | nil => simp [set, keys]
  | cons p d ih =>
    obtain ⟨k, w⟩ := p
    by_cases hk : k = x
    · subst hk; simp [set, keys]
    · have hx : x ≠ k := fun h => hk h.symm
      simp only [keys] at ih
      simp only [set, hk, if_false, keys, List.map_cons, List.mem_cons, hx, false_or, ih]
      by_cases hm : x ∈ List.map (fun p => p.1) d <;> simp [hm]

theorem mem_keys_set (d : Dict α β) (x y : α) (v : β) :
    y ∈ (d.set x v).keys ↔ y = x ∨ y ∈ d.keys := by
  rw [keys_set]; split
  · constructor
    · exact Or.inr
    · rintro (rfl | h) <;> assumption
  · simp [or_comm]

theorem nodup_keys_set {d : Dict α β} (h : d.keys.Nodup) (x : α) (v : β) :
    (d.set x v).keys.Nodup := by
  rw [keys_set]; split
  · exact h
  · rename_i hx
    rw [List.nodup_append]
    refine ⟨h, by simp, ?_⟩
    rintro a ha b hb rfl
    simp at hb; subst hb; exact hx ha

end Dict

/-- `s.add(x)` for a Python `set` held as a duplicate-free list. -/
def sadd {α : Type*} [DecidableEq α] (s : List α) (x : α) : List α :=
  if x ∈ s then s else s ++ [x]

section
variable {α : Type*} [DecidableEq α]

@[simp] theorem mem_sadd {s : List α} {x y : α} : y ∈ sadd s x ↔ y ∈ s ∨ y = x := by
  unfold sadd; split
  · constructor
    · exact Or.inl
    · rintro (h | rfl) <;> assumption
  · simp

theorem nodup_sadd {s : List α} (h : s.Nodup) (x : α) : (sadd s x).Nodup := by
  unfold sadd; split
  · exact h
  · rename_i hx
    rw [List.nodup_append]
    refine ⟨h, by simp, ?_⟩
    rintro a ha b hb rfl
    simp at hb; subst hb; exact hx ha

/-- `set(l)` -/
def mkset (l : List α) : List α := l.foldl sadd []

theorem mem_foldl_sadd {l s : List α} {x : α} : x ∈ l.foldl sadd s ↔ x ∈ s ∨ x ∈ l := by
  induction l generalizing s with
  | nil => simp
  | cons a l ih => simp [ih, or_assoc]

theorem nodup_foldl_sadd {l s : List α} (h : s.Nodup) : (l.foldl sadd s).Nodup := by
  induction l generalizing s with
  | nil => simpa
  | cons a l ih => exact ih (nodup_sadd h a)

@[simp] theorem mem_mkset {l : List α} {x : α} : x ∈ mkset l ↔ x ∈ l := by
  simp [mkset, mem_foldl_sadd]

theorem nodup_mkset (l : List α) : (mkset l).Nodup := nodup_foldl_sadd (by simp)

end

end Licant.Py
