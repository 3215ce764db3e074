import Verif.Props.Backend
import Verif.Numba
import Verif.Sympy
import Verif.Qasm
import Verif.NbFloat

/-!
# C11: the tables of methods are those of the backends
-/

set_option linter.unusedSimpArgs false
set_option linter.unusedVariables false

namespace Blueqat

/-- C11: the tables `npHas`, `nbHas`, `syHas`, `qaHas`, for which fallback resolution is shown to end, list exactly the
gates for which the models of the four backends have an action, in exact and in rounded arithmetic. -/
theorem C11_tables (F : FloatOps) (K : NbFloat) (text : ℝ → String) (n : ℕ) (g : Gate) :
    (npAction n g).isSome = npHas g ∧ (flAction F n g).isSome = npHas g ∧
    (nbAction n g).isSome = nbHas g ∧ (flNbAction K n g).isSome = nbHas g ∧
    (syAction n g).isSome = syHas g ∧ (qaAction text n g).isSome = qaHas g := by
  refine ⟨npAction_has n g, ?_, ?_, ?_, ?_, ?_⟩
  · cases g with
    | g1 k T => cases k <;> rfl
    | g2 k T => cases k <;> rfl
    | g3 k T => cases k <;> rfl
    | measure T => rfl
    | reset T => rfl
  · cases g with
    | g1 k T => cases k <;> rfl
    | g2 k T => cases k <;> rfl
    | g3 k T => cases k <;> rfl
    | measure T => rfl
    | reset T => rfl
  · cases g with
    | g1 k T => cases k <;> rfl
    | g2 k T => cases k <;> rfl
    | g3 k T => cases k <;> rfl
    | measure T => rfl
    | reset T => rfl
  · cases g with
    | g1 k T => cases k <;> rfl
    | g2 k T => cases k <;> rfl
    | g3 k T => cases k <;> rfl
    | measure T => rfl
    | reset T => rfl
  · cases g with
    | g1 k T => cases k <;> rfl
    | g2 k T => cases k <;> rfl
    | g3 k T => cases k <;> rfl
    | measure T => rfl
    | reset T => rfl

/-- `tdg` is a method of the numba backend only; the others fall back. -/
example : nbHas (.g1 .tdg (.tup [.atom (.int 0)])) = true ∧ npHas (.g1 .tdg (.tup [.atom (.int 0)])) = false := ⟨rfl, rfl⟩

end Blueqat
