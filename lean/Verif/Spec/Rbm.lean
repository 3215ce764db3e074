import Verif.Spec.Qubo
import Mathlib.Analysis.SpecialFunctions.Exp

/-!
# Specification: layers and Boltzmann averages
-/

namespace Spec

open Finset

/-- The first unit of layer `k`. -/
def layerStart (sizes : List ℕ) (k : ℕ) : ℕ := (sizes.take k).sum

/-- Unit `i` is in layer `k`. -/
def InLayer (sizes : List ℕ) (k i : ℕ) : Prop :=
  layerStart sizes k ≤ i ∧ i < layerStart sizes k + sizes.getD k 0

/-- Unit `j` is in the layer after that of unit `i`. -/
def NextLayer (sizes : List ℕ) (i j : ℕ) : Prop := ∃ k, InLayer sizes k i ∧ InLayer sizes (k + 1) j

/-- The visible units have the values `v`, and of the others exactly those in `S` are 1. -/
noncomputable def clamp (v : List ℝ) (S : Finset ℕ) (i : ℕ) : ℝ :=
  if i < v.length then v.getD i 0 else if i ∈ S then 1 else 0

/-- The sum of the weights `exp(β E)` over all values of the hidden units, with the visible units held at `v`; `E` is the
energy of the upper triangle of `Q`. -/
noncomputable def clampedSum (β : ℝ) (n : ℕ) (Q : ℕ → ℕ → ℝ) (v : List ℝ) : ℝ :=
  ∑ S ∈ (Ico v.length n).powerset, Real.exp (β * upperEnergy n Q (clamp v S))

/-- The mean of `f` over the hidden units, with weights `exp(β E)`, given that the visible units are `v`. -/
noncomputable def clampedMean (β : ℝ) (n : ℕ) (Q : ℕ → ℕ → ℝ) (v : List ℝ) (f : (ℕ → ℝ) → ℝ) : ℝ :=
  (∑ S ∈ (Ico v.length n).powerset, Real.exp (β * upperEnergy n Q (clamp v S)) * f (clamp v S)) / clampedSum β n Q v

/-- No two of the units from number `a` on are coupled. -/
def Uncoupled (n : ℕ) (Q : ℕ → ℕ → ℝ) (a : ℕ) : Prop := ∀ i j, a ≤ i → i < j → j < n → Q i j = 0

/-- A two-layer machine: the only couplings are `(i, j)` with `i` visible and `j` hidden. -/
def TwoLayer (n visible : ℕ) (Q : ℕ → ℕ → ℝ) : Prop :=
  ∀ i < n, ∀ j < n, i ≠ j → ¬ (i < visible ∧ visible ≤ j) → Q i j = 0

end Spec
