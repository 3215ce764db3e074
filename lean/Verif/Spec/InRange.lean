import Verif.Spec.Append
import Verif.Spec.World

/-!
# Specification: circuits built with in-range targets

A negative integer counts from the end of the register, except in three-qubit gates, which use the written
integers as they are (the code reads them without normalising). What is too large needs no condition: appending
grows the register.
-/

namespace Spec

open Blueqat

/-- The smallest integer that may be written in a subscript of this gate on an `n`-qubit register. -/
def lowest (n : ℕ) : Gate → ℤ
  | .g3 _ _ => 0
  | _ => -n

/-- Every integer written in the gate's subscript is an index of an `n`-qubit register. -/
def WrittenInRange (n : ℕ) (g : Gate) : Prop := ∀ v ∈ intsOf g.targets, lowest n g ≤ v ∧ v < n

/-- The action, performed in world `w`, uses a well-formed subscript with no index below the register. -/
def UsesInRange {V M C B A : Type} (w : World V M C B) : Cmd V M C A → Prop
  | .append i g => Plain g.targets ∧
      ∃ m, GrownTo (view w i).n g.targets m ∧ ∀ v ∈ intsOf g.targets, lowest m g ≤ v
  | .newFrom n ops => ∀ g ∈ ops, WrittenInRange n g
  | _ => True

/-- Every qubit index the gate resolves to on an `n`-qubit register is one of `0, ..., n-1`. -/
def ResolvesInside (n : ℕ) : Gate → Prop
  | .g2 _ T => ∀ a b, T = .tup [a, b] →
      (∀ q ∈ (slicingItem a n).vals, 0 ≤ q ∧ q < n) ∧ (∀ q ∈ (slicingItem b n).vals, 0 ≤ q ∧ q < n)
  | .g3 _ T => ∀ q ∈ intsOf T, 0 ≤ q ∧ q < n
  | .g1 _ T => ∀ q ∈ (slicing T n).vals, 0 ≤ q ∧ q < n
  | .measure T => ∀ q ∈ (slicing T n).vals, 0 ≤ q ∧ q < n
  | .reset T => ∀ q ∈ (slicing T n).vals, 0 ≤ q ∧ q < n

end Spec
