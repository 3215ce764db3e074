import Verif.Spec.Qubo

/-!
# Specification: fields and couplings given by dictionaries
-/

namespace Spec

/-- `Σ h_k s_k + Σ J_ab s_a s_b` for dictionaries of fields and couplings. -/
noncomputable def fieldsEnergy (linear : List (ℕ × ℝ)) (quad : List ((ℕ × ℕ) × ℝ)) (s : ℕ → ℝ) : ℝ :=
  (linear.map fun p => p.2 * s p.1).sum + (quad.map fun p => p.2 * s p.1.1 * s p.1.2).sum

/-- The nodes that occur in the dictionaries. -/
def activeNodes (linear : List (ℕ × ℝ)) (quad : List ((ℕ × ℕ) × ℝ)) (i : ℕ) : Prop :=
  i ∈ linear.map Prod.fst ∨ ∃ p ∈ quad, p.1.1 = i ∨ p.1.2 = i

/-- The sample has a spin for every active node (for the other nodes it may have anything), and no assignment of spins has a
lower energy. -/
def IsGround (linear : List (ℕ × ℝ)) (quad : List ((ℕ × ℕ) × ℝ)) (sample : List ℤ) : Prop :=
  (∀ i, activeNodes linear quad i → sample[i]? = some 1 ∨ sample[i]? = some (-1)) ∧
  ∀ t : ℕ → ℝ, (∀ i, t i = 1 ∨ t i = -1) →
    fieldsEnergy linear quad (fun i => (sample.getD i 0 : ℤ)) ≤ fieldsEnergy linear quad t

open Finset in
/-- The couplings of a QUBO between variables that are not connected, in terms of the spins `2b - 1`. -/
noncomputable def leftOut (n : ℕ) (Q : ℕ → ℕ → ℝ) (edges : List (ℕ × ℕ)) (b : ℕ → ℝ) : ℝ :=
  ∑ i ∈ range n, ∑ j ∈ range n, if i < j ∧ (i, j) ∉ edges then Q i j / 4 * (2 * b i - 1) * (2 * b j - 1) else 0

end Spec
