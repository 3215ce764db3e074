import Verif.Spec.Pauli
import Verif.Spec.Matrix

/-!
# Specification: matrices of operators, Kronecker products of vectors
-/

namespace Spec

noncomputable section

/-- The matrix of an operator on `n` qubits: entry `(i, j)` is amplitude `i` of the image of basis state `j`. Qubit `k`
is bit `k` of the indices, see `Spec/Quantum`. -/
def opRows (n : ℕ) (A : Operator) : List (List ℂ) :=
  (List.range (2 ^ n)).map fun i => (List.range (2 ^ n)).map fun j => A (basis j) i

/-- The Kronecker product of two vectors. -/
def kron (a b : List ℂ) : List ℂ := a.flatMap fun x => b.map fun y => x * y

/-- The Kronecker product of a non-empty list of vectors, from left to right. -/
def kronAll (v : List ℂ) (vs : List (List ℂ)) : List ℂ := vs.foldl kron v

end

end Spec
