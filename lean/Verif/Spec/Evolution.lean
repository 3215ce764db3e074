import Verif.Spec.Pauli
import Verif.Spec.Circuit
import Mathlib.Analysis.SpecialFunctions.Trigonometric.Deriv

/-!
# Specification: gates that implement an operator, time evolution
-/

namespace Spec

open Blueqat (Gate)

noncomputable section

/-- The gates denote valid unitary operations on `n` qubits that together act as the operator `A`. -/
def ActsAs (n : ℕ) (gs : List Gate) (A : Operator) : Prop :=
  ∃ es, GatesDenote n gs es ∧ (∀ e ∈ es, e.Valid n ∧ e.IsUnitary) ∧ ∀ ph ψ, unitaries ph es ψ = A ψ

/-- `U t` is the evolution `exp(i t H)`: it starts at the identity and every amplitude of every evolved state satisfies
`d/dt U(t) ψ = i H U(t) ψ`. -/
structure IsEvolution (H : Operator) (U : ℝ → Operator) : Prop where
  start : U 0 = 1
  deriv : ∀ (ψ : Vec) (k : ℕ) (t : ℝ), HasDerivAt (fun s => U s ψ k) (Complex.I * H (U t ψ) k) t

/-- `exp(iθP) = cos θ + i sin θ P` for an operator with `P² = 1`. -/
def expI (θ : ℝ) (P : Operator) : Operator := (Real.cos θ : ℂ) • (1 : Operator) + (Complex.I * Real.sin θ) • P

/-- The number of `Y` operators in a product. -/
def yCount (ops : List Blueqat.POp) : ℕ := (ops.filter (fun o => o.p = .Y)).length

/-- One more than the largest qubit number (0 if there is none). -/
def qubitsOf (ops : List Blueqat.POp) : ℕ := ops.foldr (fun o m => max (o.n + 1) m) 0

end

end Spec
