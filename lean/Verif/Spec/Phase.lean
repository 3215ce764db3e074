import Verif.FloatPhase
import Verif.Spec.Rounding

/-!
# Specification: removing a global phase in floating point
-/

namespace Spec

open Blueqat (PhaseOps)

noncomputable section

/-- The arithmetic `P` has relative errors of at most `δ`; the threshold is `10^-7` up to that error. -/
structure PhaseAccurate (P : PhaseOps) (δ : ℝ) : Prop where
  abs : ∀ z, |P.abs z - ‖z‖| ≤ δ * ‖z‖
  quot : ∀ (x : ℝ) (z : ℂ), z ≠ 0 → ‖P.quot x z - x / z‖ ≤ δ * ‖(x : ℂ) / z‖
  mul : ∀ a b, ‖P.mul a b - a * b‖ ≤ δ * ‖a * b‖
  thr : |P.thr - 1 / 10 ^ 7| ≤ δ * (1 / 10 ^ 7)

/-- The Euclidean distance of two states of `n` qubits. -/
def distance (n : ℕ) (φ ψ : Vec) : ℝ := √(∑ i ∈ Finset.range (2 ^ n), ‖φ i - ψ i‖ ^ 2)

/-- Amplitude `j` of the `n`-qubit state `ψ` is the first above `10^-7`, and this can still be seen if amplitudes have
errors of up to `B` and their sizes relative errors of up to `δ`. -/
def FirstSeen (δ B : ℝ) (n : ℕ) (ψ : Vec) (j : ℕ) : Prop :=
  j < 2 ^ n ∧ (∀ i < j, (1 + δ) * (‖ψ i‖ + B) ≤ (1 - δ) * (1 / 10 ^ 7)) ∧
    (1 + δ) * (1 / 10 ^ 7) < (1 - δ) * (‖ψ j‖ - B)

/-- The state `ψ` turned so that amplitude `j` is a positive real number. -/
def turned (ψ : Vec) (j : ℕ) : Vec := fun i => (‖ψ j‖ : ℂ) / ψ j * ψ i

/-- The bound on the error of a turned state, from a bound `B` on the error of the state. -/
def turnedErr (δ B : ℝ) (ψ : Vec) (j : ℕ) : ℝ := (1 + δ) ^ 3 * (1 + B) - 1 + 2 * B / ‖ψ j‖

end

end Spec
