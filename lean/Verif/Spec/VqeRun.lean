import Verif.VqeRun
import Verif.Spec.Vqe
import Verif.Spec.Qaoa
import Verif.Spec.Shots

/-!
# Specification: minimizers on functions, lowest energies
-/

namespace Spec

open Blueqat (Minimizer Ansatz)

noncomputable section

/-- The points and values a minimizer sees when it minimizes the function `E`. -/
def trace (E : List ℝ → ℝ) : Minimizer → List (List ℝ × ℝ)
  | .done _ => []
  | .ask p next => (p, E p) :: trace E (next (E p))

/-- The point a minimizer returns when it minimizes the function `E`. -/
def answer (E : List ℝ → ℝ) : Minimizer → List ℝ
  | .done p => p
  | .ask p next => answer E (next (E p))

/-- The minimizer only handles points with `k` coordinates, whatever values it is told. -/
def HasDim (k : ℕ) : Minimizer → Prop
  | .done p => p.length = k
  | .ask p next => p.length = k ∧ ∀ v, HasDim k (next v)

/-- No state on `n` qubits has a lower energy than `E₀`. -/
def IsEnergyBound (n : ℕ) (H : Operator) (E₀ : ℝ) : Prop := ∀ ψ, normSqN n ψ = 1 → E₀ ≤ (expectation n H ψ).re

/-- The state `|0...0⟩`. -/
def zeroState : Vec := fun j => if j = 0 then 1 else 0

/-- For all parameters `get_circuit` gives a circuit on `n` qubits of unitary gates on existing qubits, which prepares `ψ`. -/
def Prepares (a : Ansatz) (n : ℕ) (ψ : List ℝ → Vec) : Prop :=
  ∀ p, p.length = a.nParams → ∃ gs es, a.getCircuit p = .ok ⟨n, gs⟩ ∧ GatesDenote n gs es ∧
    (∀ e ∈ es, e.Valid n ∧ e.IsUnitary) ∧ ∃ z : ℂ, ‖z‖ = 1 ∧ unitaries phDoc es zeroState = z • ψ p

/-- The uniform superposition of the basis states of `n` qubits. -/
def plusState (n : ℕ) : Vec := fun j => if j < 2 ^ n then 1 / (Real.sqrt (2 ^ n) : ℝ) else 0

end

end Spec
