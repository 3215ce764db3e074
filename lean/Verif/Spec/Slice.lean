import Mathlib.Data.Int.Order.Basic

/-!
# Specification: what a Python subscript selects from `range(n)`

Taken from the Python language reference ("common sequence operations", notes 3-5); it mentions no
definition of the model.
-/

namespace Spec

/-- The position an index `x` denotes in a sequence of length `n`: negative indices count from the end. -/
def pyIndex (n x : Int) : Int := if x < 0 then x + n else x

/-- Qubit `q` is selected by `start:stop:step` from the sequence `0, 1, ..., n-1`.
Omitted members mean "no bound on that side"; the progression starts at the first position inside the
sequence. -/
def SliceSelects (n : Int) (start stop step : Option Int) (q : Int) : Prop :=
  0 ≤ q ∧ q < n ∧
    if 0 < step.getD 1 then
      (∀ a ∈ start, pyIndex n a ≤ q) ∧ (∀ b ∈ stop, q < pyIndex n b) ∧
        step.getD 1 ∣ q - max 0 ((start.map (pyIndex n)).getD 0)
    else
      (∀ a ∈ start, q ≤ pyIndex n a) ∧ (∀ b ∈ stop, pyIndex n b < q) ∧
        step.getD 1 ∣ q - min (n - 1) ((start.map (pyIndex n)).getD (n - 1))

/-- A list enumerates a selection in the direction of the step, each element once. -/
def Enumerates (step : Option Int) (P : Int → Prop) (L : List Int) : Prop :=
  (∀ q, q ∈ L ↔ P q) ∧
    if 0 < step.getD 1 then L.Pairwise (· < ·) else L.Pairwise (· > ·)

end Spec
