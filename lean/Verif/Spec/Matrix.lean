import Verif.Spec.Shots

/-!
# Specification: matrices given by their rows
-/

namespace Spec

/-- The product of a matrix, given by its rows, with a column vector. -/
noncomputable def matVec (rows : List (List ℂ)) (v : List ℂ) : List ℂ :=
  rows.map fun r => (List.zipWith (· * ·) r v).sum

/-- `d` rows of `d` entries. -/
def IsSquare (d : ℕ) (rows : List (List ℂ)) : Prop := rows.length = d ∧ ∀ r ∈ rows, r.length = d

/-- Every entry multiplied by `z`. -/
noncomputable def scaleRows (z : ℂ) (rows : List (List ℂ)) : List (List ℂ) := rows.map fun r => r.map fun x => z * x

/-- Column `j` of a matrix. -/
noncomputable def column (rows : List (List ℂ)) (j : ℕ) : List ℂ := rows.map fun r => r.getD j 0

/-- The `j`-th basis state of `n` qubits: amplitude 1 at index `j`. -/
noncomputable def basis (j : ℕ) : Vec := fun i => if i = j then 1 else 0

end Spec
