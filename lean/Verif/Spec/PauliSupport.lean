import Verif.Spec.Pauli
import Mathlib.Algebra.Group.Commute.Defs

/-!
# Specification: the qubits an operator acts on
-/

namespace Spec

/-- `A` acts only on the qubits `0, ..., n - 1`: it commutes with every matrix on every other qubit. -/
def ActsWithin (A : Operator) (n : ℕ) : Prop := ∀ (M : M2) (q : ℕ), n ≤ q → Commute (matAt M q) A

end Spec
