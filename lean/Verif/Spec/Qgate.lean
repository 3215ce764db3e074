import Mathlib.Data.Nat.Bitwise
import Mathlib.Data.List.Basic

/-!
# Specification: placement of sampled bits
-/

namespace Spec

/-- The bit strings with a character for every qubit, qubit 0 first: `1` where the predicate holds. -/
def IsBitString (n : ℕ) (s : String) (one : ℕ → Prop) : Prop :=
  s.toList.length = n ∧ ∀ k < n, s.toList[k]? = some '1' ∧ one k ∨ s.toList[k]? = some '0' ∧ ¬ one k

/-- The value of `v` spread over the lanes that are not empty, in order: an empty lane gets 0, another one the bit of `v`
whose number is the number of lanes below it that are not empty. -/
def Spread (empty : List ℕ) (v r : ℕ) : Prop :=
  ∀ lane, r.testBit lane = if lane ∈ empty then false else v.testBit ((List.range lane).filter (fun l => l ∉ empty)).length

end Spec
