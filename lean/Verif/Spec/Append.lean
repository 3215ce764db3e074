import Verif.Slicing
import Mathlib.Order.Bounds.Basic

/-!
# Specification: indices a subscript mentions

An integer mentions itself, a slice `a:b` mentions its bounds `a` and `b - 1` when they are given.
-/

namespace Spec

open Blueqat (Atom Item Targets)

/-- The indices mentioned by one subscript element. -/
def atomMentions : Atom → List ℤ
  | .int i => [i]
  | .slice a b _ => a.toList ++ (b.map (· - 1)).toList
  | .bad => []

/-- The elements of a subscript, nested tuples flattened. -/
def atomsOf : Targets → List Atom
  | .one a => [a]
  | .tup xs => xs.flatMap fun x => match x with
    | .atom a => [a]
    | .tup as => as

/-- The indices a subscript mentions. -/
def mentions (T : Targets) : List ℤ := (atomsOf T).flatMap atomMentions

/-- The integers written in a subscript. -/
def intsOf (T : Targets) : List ℤ :=
  (atomsOf T).flatMap fun a => match a with
    | .int i => [i]
    | _ => []

/-- A subscript made of integers and slices, in a flat tuple or alone. -/
def Plain : Targets → Prop
  | .one a => a ≠ .bad
  | .tup xs => ∀ x ∈ xs, ∃ a, x = .atom a ∧ a ≠ .bad

/-- `m` is the least register size not below `n` that contains every mentioned index. -/
def GrownTo (n : ℕ) (T : Targets) (m : ℕ) : Prop := IsLeast {m : ℕ | n ≤ m ∧ ∀ v ∈ mentions T, v < m} m

end Spec
