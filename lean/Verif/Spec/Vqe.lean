import Verif.Spec.Pauli
import Verif.Spec.Shots
import Mathlib.Algebra.BigOperators.Group.Finset.Basic

/-!
# Specification: outcomes, their probabilities, expectation values
-/

namespace Spec

open scoped ComplexConjugate

noncomputable section

/-- The outcome basis state `i` gives for the qubits `meas`, in this order; repetitions are allowed. -/
def bitsAt (meas : List ℕ) (i : ℕ) : List ℕ := meas.map fun q => if i.testBit q then 1 else 0

/-- The probability of the outcome `key` of measuring the qubits `meas` in the state with amplitudes `v`. -/
def outcomeProb (v : List ℂ) (meas : List ℕ) (key : List ℕ) : ℝ :=
  ∑ i ∈ (Finset.range v.length).filter (fun i => bitsAt meas i = key), ‖v.getD i 0‖ ^ 2

/-- The outcome a shot gave for the qubits `meas`, in this order. -/
def shotKey (meas : List ℕ) (s : MState) : List ℕ := meas.map fun q => if s.creg q then 1 else 0

/-- The fraction of the shots with the outcome `key` for the qubits `meas`. -/
def shotFraction (shots : List MState) (meas : List ℕ) (key : List ℕ) : ℝ :=
  (shots.countP (fun s => decide (shotKey meas s = key)) : ℝ) / shots.length

/-- `⟨ψ|A|ψ⟩` on `n` qubits. -/
def expectation (n : ℕ) (A : Operator) (ψ : Vec) : ℂ := ∑ i ∈ Finset.range (2 ^ n), conj (ψ i) * A ψ i

end

end Spec
