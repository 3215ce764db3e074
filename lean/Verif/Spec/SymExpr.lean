import Mathlib.Data.Real.Basic
import Mathlib.Algebra.BigOperators.Group.List.Basic

/-!
# Specification: values of polynomial expressions
-/

namespace Spec

/-- The product of the values of the symbols in a list. -/
noncomputable def prodOf {V : Type} (ρ : V → ℝ) (vs : List V) : ℝ := (vs.map ρ).prod

/-- Every symbol has value 0 or 1. -/
def BitValues {V : Type} (ρ : V → ℝ) : Prop := ∀ v, ρ v = 0 ∨ ρ v = 1

end Spec
