import Verif.PauliFloat
import Verif.Spec.Pauli
import Verif.Spec.Matrix

/-!
# Specification: accurate arithmetic for matrices of Pauli expressions and for sparse energies
-/

namespace Spec

open Blueqat (PauliOps PExpr PTerm)

noncomputable section

/-- Sums and products of two complex numbers have a relative error of at most `δ`. -/
structure PauliAccurate (P : PauliOps) (δ : ℝ) : Prop where
  mul : ∀ a b, ‖P.mul a b - a * b‖ ≤ δ * ‖a * b‖
  add : ∀ a b, ‖P.add a b - (a + b)‖ ≤ δ * ‖a + b‖

/-- Sums of `2^n` products have an error of at most `ν` times the sum of the absolute values of the products. -/
structure DotAccurate (P : PauliOps) (n : ℕ) (ν : ℝ) : Prop where
  dot : ∀ f g : ℕ → ℂ, ‖P.dot ((List.range (2 ^ n)).map f) ((List.range (2 ^ n)).map g) - ∑ i ∈ Finset.range (2 ^ n), f i * g i‖ ≤
    ν * ∑ i ∈ Finset.range (2 ^ n), ‖f i‖ * ‖g i‖
  vdot : ∀ f g : ℕ → ℂ, ‖P.vdot ((List.range (2 ^ n)).map f) ((List.range (2 ^ n)).map g) -
    ∑ i ∈ Finset.range (2 ^ n), (starRingEnd ℂ) (f i) * g i‖ ≤ ν * ∑ i ∈ Finset.range (2 ^ n), ‖f i‖ * ‖g i‖

/-- The number of roundings a coefficient goes through on its way into the matrix on `n` qubits of an expression of `T`
terms with at most `L` letters each, at most. -/
def matrixDepth (n T L : ℕ) : ℕ := 2 * n + 2 * T + L

/-- The sum of the absolute values of what the terms of `H` contribute to the entry `(i, j)`. -/
def entrySize (H : PExpr) (i j : ℕ) : ℝ := (H.terms.map (fun t => ‖termOp t (basis j) i‖)).sum

/-- The bound on the error of the energy of `H`, for a circuit of `N` passes with relative error `κ`. -/
def sparseErr (δ ν κ : ℝ) (n N L : ℕ) (H : PExpr) : ℝ :=
  ((1 + ν) ^ 2 * (1 + δ) ^ matrixDepth n H.terms.length L * (1 + κ) ^ (2 * N) - 1) * (H.terms.map (fun t => ‖t.coeff‖)).sum

end

end Spec
