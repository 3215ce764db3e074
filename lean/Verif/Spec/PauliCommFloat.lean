import Verif.Spec.PauliAlgFloat
import Verif.Spec.Pauli

/-!
# Specification: deciding commutation in floating point
-/

namespace Spec

open Blueqat (PTerm PExpr)

noncomputable section

/-- Rounding to machine numbers: symmetric, without effect on machine numbers, and 1 is one of them. -/
structure SignedRounding (fl : ℝ → ℝ) : Prop where
  odd : ∀ x, fl (-x) = -fl x
  idem : ∀ x, fl (fl x) = fl x
  one : fl 1 = 1

/-- The operator is a sum of different products of Pauli operators, each with at most one operator per qubit, and the squares
of the absolute values of their coefficients add up to `S`. -/
def SquareSum (A : Operator) (S : ℝ) : Prop := ∃ l : List PTerm, (∀ t ∈ l, t.ops.Pairwise (fun a b => a.n < b.n)) ∧
  (l.map PTerm.ops).Nodup ∧ A = (l.map termOp).sum ∧ S = (l.map (fun t => ‖t.coeff‖ ^ 2)).sum

/-- The number of roundings a coefficient of the commutator of two expressions goes through, at most: `m` and `n` are the
numbers of their terms, `L` and `M` bound the numbers of letters of their terms. -/
def commRoundings (L M m n : ℕ) : ℕ := 2 * (L + M) + (m + n) + 4 * (m * n) + 1

/-- The bound on the error of the commutator. -/
def commErr (δ : ℝ) (L M : ℕ) (a b : PExpr) : ℝ :=
  ((1 + δ) ^ commRoundings L M a.terms.length b.terms.length - 1) * (2 * (coeffTotal a.terms * coeffTotal b.terms))

/-- The bound on the relative error of a sum of the squares of the coefficients of the commutator. -/
def sumErr (δ : ℝ) (a b : PExpr) : ℝ := (1 + δ) ^ (1 + 2 * (a.terms.length * b.terms.length)) - 1

end

end Spec
