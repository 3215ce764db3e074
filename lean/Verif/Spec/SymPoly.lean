import Verif.SymPoly
import Verif.Spec.Qubo

/-!
# Specification: the value of a polynomial, quadratic forms, orders of enumeration
-/

namespace Spec

open Blueqat (PolyText)

noncomputable section

/-- The value of a polynomial, as written, for given values of the symbols. -/
def valueOf : PolyText → (ℕ → ℝ) → ℝ
  | .num c, _ => c
  | .sym i, x => x i
  | .neg a, x => -valueOf a x
  | .add a b, x => valueOf a x + valueOf b x
  | .sub a b, x => valueOf a x - valueOf b x
  | .mul a b, x => valueOf a x * valueOf b x
  | .pow a n, x => valueOf a x ^ n

/-- `c + Σ_i a_i x_i + Σ_{i<j} b_ij x_i x_j`. -/
def quadForm (n : ℕ) (c : ℝ) (a : ℕ → ℝ) (b : ℕ → ℕ → ℝ) (x : ℕ → ℝ) : ℝ :=
  c + ∑ i ∈ Finset.range n, a i * x i + ∑ i ∈ Finset.range n, ∑ j ∈ Finset.range n, if i < j then b i j * x i * x j else 0

/-- A variable occurs in a product. -/
def InProduct (n : ℕ) (b : ℕ → ℕ → ℝ) (i : ℕ) : Prop := ∃ j < n, (i < j ∧ b i j ≠ 0) ∨ (j < i ∧ b j i ≠ 0)

/-- A way to enumerate sets: every element once. -/
def ListsSets (ord : Finset ℕ → List ℕ) : Prop := ∀ s, (ord s).Nodup ∧ ∀ i, i ∈ ord s ↔ i ∈ s

/-- The polynomial function that a text denotes, as a polynomial. -/
def Denotes (P : PolyText) (f : MvPolynomial ℕ ℝ) : Prop := ∀ x, MvPolynomial.eval x f = valueOf P x

/-- No symbol has a larger power than the symbol with the smallest number. -/
def FirstIsLargest (f : MvPolynomial ℕ ℝ) : Prop :=
  ∀ i ∈ f.vars, (∀ k ∈ f.vars, i ≤ k) → ∀ j, f.degreeOf j ≤ f.degreeOf i

/-- No symbol occurs with an exponent above 1. -/
def IsMultilinear (f : MvPolynomial ℕ ℝ) : Prop := ∀ m ∈ f.support, ∀ i, m i ≤ 1

end

end Spec
