import Verif.PauliAlgFloat
import Verif.Spec.PauliFloat
import Verif.Spec.QaoaFloat

/-!
# Specification: rounding errors of arithmetic with Pauli operators
-/

namespace Spec

open Blueqat (PTerm PyNum AlgOps)

noncomputable section

/-- Sums, products and quotients of two complex numbers have a relative error of at most `δ`; an `n`-th power is as accurate
as `n` products. -/
structure AlgAccurate (Q : AlgOps) (δ : ℝ) : Prop extends PauliAccurate Q.toPauliOps δ where
  div : ∀ a b, ‖Q.div a b - a / b‖ ≤ δ * ‖a / b‖
  pow : ∀ (a : ℂ) (n : ℕ), ‖Q.pow a n - a ^ n‖ ≤ ((1 + δ) ^ n - 1) * ‖a ^ n‖

/-- The operator is a sum of Pauli products with coefficients whose absolute values add up to at most `r`. -/
def SizeLe (A : Operator) (r : ℝ) : Prop := ∃ l : List PTerm, A = (l.map termOp).sum ∧ coeffTotal l ≤ r

/-- The formula with all numbers replaced by their absolute values, all Pauli operators by 1 and all signs by plus: its value
is a bound on the size of the operator. -/
def Formula.size : Formula → ℝ
  | .num x => ‖x.val‖
  | .pauli _ => 1
  | .neg a => a.size
  | .add a b | .sub a b => a.size + b.size
  | .mul a b => a.size * b.size
  | .div a x => a.size / ‖x.val‖
  | .pow a n => a.size ^ n

/-- The number of terms of the formula multiplied out. -/
def Formula.terms : Formula → ℕ
  | .num _ | .pauli _ => 1
  | .neg a | .div a _ => a.terms
  | .add a b | .sub a b => a.terms + b.terms
  | .mul a b => a.terms * b.terms
  | .pow a n => a.terms ^ n

/-- The number of roundings a coefficient goes through, at most: a sum adds the terms of the second operand one after the other,
a product of sums adds up all products of two terms. -/
def Formula.roundings : Formula → ℕ
  | .num _ | .pauli _ => 0
  | .neg a => a.roundings
  | .add a b | .sub a b => max a.roundings b.roundings + b.terms
  | .mul a b => a.roundings + b.roundings + 1 + a.terms * b.terms
  | .div a _ => a.roundings + 1
  | .pow a n => n * (a.roundings + 1 + a.terms ^ n)

end

end Spec
