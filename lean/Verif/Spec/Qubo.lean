import Mathlib.Algebra.BigOperators.Group.Finset.Basic
import Mathlib.Algebra.BigOperators.Intervals
import Mathlib.Data.Real.Basic

/-!
# Specification: QUBO and Ising energies
-/

namespace Spec

open Finset

/-- The entries of a list of rows; 0 outside. -/
noncomputable def entryOf (q : List (List ℝ)) (i j : ℕ) : ℝ := (q.getD i []).getD j 0

/-- Every value is 0 or 1. -/
def IsBits (b : ℕ → ℝ) : Prop := ∀ i, b i = 0 ∨ b i = 1

/-- `Σ_ij Q_ij b_i b_j` over all pairs. -/
noncomputable def quboEnergy (n : ℕ) (Q : ℕ → ℕ → ℝ) (b : ℕ → ℝ) : ℝ :=
  ∑ i ∈ range n, ∑ j ∈ range n, Q i j * b i * b j

/-- `Σ_{i ≤ j} Q_ij b_i b_j`: only the upper triangle. -/
noncomputable def upperEnergy (n : ℕ) (Q : ℕ → ℕ → ℝ) (b : ℕ → ℝ) : ℝ :=
  ∑ i ∈ range n, ∑ j ∈ range n, if i ≤ j then Q i j * b i * b j else 0

/-- `Σ_i J_ii s_i + Σ_{i<j} J_ij s_i s_j`. -/
noncomputable def isingEnergy (n : ℕ) (J : ℕ → ℕ → ℝ) (s : ℕ → ℝ) : ℝ :=
  ∑ i ∈ range n, J i i * s i + ∑ i ∈ range n, ∑ j ∈ range n, if i < j then J i j * s i * s j else 0

end Spec
