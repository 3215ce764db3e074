import Mathlib.MeasureTheory.Measure.Lebesgue.Basic
import Mathlib.Probability.ProductMeasure
import Verif.Spec.Shots

/-!
# Specification: the Born rule

The probability of a sequence of outcomes is the squared norm of the state vector after the gates and the projections
of these outcomes (without any renormalisation). Random numbers are independent and uniform on `[0, 1)`.
-/

namespace Spec

open MeasureTheory

noncomputable section

/-- The part of a state vector where qubit `t` has the value `b`. -/
def project (t : ℕ) (b : Bool) (ψ : Vec) : Vec := fun i => if i.testBit t = b then ψ i else 0

/-- Probability that the operations, started in `ψ` with the classical bits `creg`, end with the classical bits `key`.
A measurement projects and records; a reset projects and moves the qubit to 0. -/
def born (n : ℕ) : List Elem → Vec → (ℕ → Bool) → String → ℝ
  | [], ψ, creg, key => if bitString n creg = key then normSqN n ψ else 0
  | .meas t :: es, ψ, creg, key =>
    born n es (project t false ψ) (Function.update creg t false) key +
      born n es (project t true ψ) (Function.update creg t true) key
  | .reset t :: es, ψ, creg, key =>
    born n es (project t false ψ) creg key + born n es (app mX t (project t true ψ)) creg key
  | .one k t :: es, ψ, creg, key => born n es ((Elem.one k t).unitary phDoc ψ) creg key
  | .two k c t :: es, ψ, creg, key => born n es ((Elem.two k c t).unitary phDoc ψ) creg key
  | .three k a b c :: es, ψ, creg, key => born n es ((Elem.three k a b c).unitary phDoc ψ) creg key

/-- The probability that a circuit, run from the all-zero state, ends with the classical bits `key`. -/
def bornShot (n : ℕ) (es : List Elem) (key : String) : ℝ := born n es (fun i => if i = 0 then 1 else 0) (fun _ => false) key

/-- The uniform distribution on `[0, 1)`. -/
def uniform : Measure ℝ := volume.restrict (Set.Ico 0 1)

instance : IsProbabilityMeasure uniform := ⟨by simp [uniform]⟩

/-- Independent uniform random numbers. -/
def randoms : Measure (ℕ → ℝ) := Measure.infinitePi fun _ => uniform

instance : IsProbabilityMeasure randoms := by unfold randoms; infer_instance

end

end Spec
