import Verif.Py
import Mathlib.Tactic.SplitIfs

/-!
# Python dictionaries

An insertion-ordered association list; Python language reference, "Mapping Types — dict".
-/

namespace Blueqat

/-- A `dict` from `α` to `β`, in insertion order. -/
abbrev PyDict (α β : Type) := List (α × β)

/-- `d.get(k)` (`none` for a missing key). Library behaviour. -/
def PyDict.get {α β : Type} [DecidableEq α] (d : PyDict α β) (k : α) : Option β :=
  match d with
  | [] => none
  | (k', v) :: rest => if k' = k then some v else PyDict.get rest k

/-- `k in d`. Library behaviour. -/
def PyDict.has {α β : Type} [DecidableEq α] (d : PyDict α β) (k : α) : Bool := (d.get k).isSome

/-- `d[k] = v`: replaces in place or appends at the end. Library behaviour. -/
def PyDict.set {α β : Type} [DecidableEq α] (d : PyDict α β) (k : α) (v : β) : PyDict α β :=
  match d with
  | [] => [(k, v)]
  | (k', v') :: rest => if k' = k then (k', v) :: rest else (k', v') :: PyDict.set rest k v

/-- `del d[k]` for a present key; a missing key is a KeyError, see the callers. Library behaviour. -/
def PyDict.del {α β : Type} [DecidableEq α] (d : PyDict α β) (k : α) : PyDict α β :=
  d.filter (fun p => decide (p.1 ≠ k))

/-- The keys of a `dict` are pairwise different. -/
def PyDict.WF {α β : Type} (d : PyDict α β) : Prop := (d.map Prod.fst).Nodup

section
variable {α β : Type} [DecidableEq α]

theorem PyDict.get_set (d : PyDict α β) (k k' : α) (v : β) :
    (d.set k v).get k' = if k' = k then some v else d.get k' := by
  induction d with
  | nil =>
    by_cases h : k' = k
    · simp [PyDict.set, PyDict.get, h]
    · simp [PyDict.set, PyDict.get, h, Ne.symm h]
  | cons p rest ih =>
    obtain ⟨a, b⟩ := p
    simp only [PyDict.set]
    by_cases h1 : a = k
    · subst h1
      by_cases h : k' = a
      · simp [PyDict.get, h]
      · simp [PyDict.get, h, Ne.symm h]
    · by_cases h2 : a = k'
      · subst h2; simp [PyDict.get, h1]
      · simp [PyDict.get, h1, h2, ih]

theorem PyDict.get_del (d : PyDict α β) (k k' : α) :
    (d.del k).get k' = if k' = k then none else d.get k' := by
  induction d with
  | nil => simp [PyDict.del, PyDict.get]
  | cons p rest ih =>
    obtain ⟨a, b⟩ := p
    simp only [PyDict.del] at ih ⊢
    by_cases h1 : a = k
    · subst h1
      simp only [List.filter_cons, ne_eq, not_true, decide_false, Bool.false_eq_true, if_false]
      rw [ih]
      by_cases h : k' = a
      · simp [h]
      · simp [PyDict.get, h, Ne.symm h]
    · simp only [List.filter_cons, ne_eq, h1, not_false_iff, decide_true, if_true]
      by_cases h2 : a = k'
      · subst h2; simp [PyDict.get, h1]
      · simp only [PyDict.get, h2, if_false]; exact ih

theorem PyDict.get_mem {d : PyDict α β} {k : α} {v : β} (h : d.get k = some v) : (k, v) ∈ d := by
  induction d with
  | nil => simp [PyDict.get] at h
  | cons p rest ih =>
    obtain ⟨a, b⟩ := p
    simp only [PyDict.get] at h
    split_ifs at h with h1
    · subst h1; cases h; simp
    · exact List.mem_cons_of_mem _ (ih h)

end

end Blueqat
