import Verif.QaoaFloat
import Verif.Spec.PauliFloat
import Verif.Spec.EnergyFloat
import Verif.Spec.Qaoa

/-!
# Specification: errors of QAOA circuits in floating point
-/

namespace Spec

open Blueqat (POp PTerm PExpr AngleOps)

noncomputable section

/-- Products of two floats and the constants `π` and `π/2` have a relative error of at most `ε`. -/
structure AngleAccurate (O : AngleOps) (ε : ℝ) : Prop where
  mul : ∀ x y, |O.mul x y - x * y| ≤ ε * |x * y|
  pi : |O.pi - Real.pi| ≤ ε * Real.pi
  halfPi : |O.halfPi - Real.pi / 2| ≤ ε * (Real.pi / 2)

/-- The sum of the absolute values of the coefficients. -/
def coeffTotal (ts : List PTerm) : ℝ := (ts.map (fun t => ‖t.coeff‖)).sum

/-- The number of letters `Y` in all terms. -/
def yTotal (ts : List PTerm) : ℕ := (ts.map (fun t => yCount t.ops)).sum

/-- How far the computed evolution of the terms is from the exact one for the time `τ`, in the operator norm, if the time has
gone through `k` roundings: a rotation is changed by half the error of its angle, which is `2τ` times the coefficient and is
rounded twice more; every `Y` needs two rotations by `π/2`. -/
def evolutionShift (ε : ℝ) (k : ℕ) (ts : List PTerm) (τ : ℝ) : ℝ :=
  ((1 + ε) ^ (k + 2) - 1) * |τ| * coeffTotal ts + ε * (Real.pi / 2) * yTotal ts

/-- How far one step is from the exact one: the evolution of the cost for `2πγ` (three roundings), and `rx` by `πβ` (two
roundings) on all `n` qubits or the evolutions of the mixer for `πβ`. -/
def stepShift (ε : ℝ) (n : ℕ) (ts : List PTerm) (mixer : Option (List PTerm)) (p : ℝ × ℝ) : ℝ :=
  evolutionShift ε 3 ts (2 * Real.pi * p.2) +
    match mixer with
    | none => n * (((1 + ε) ^ 2 - 1) * |Real.pi * p.1| / 2)
    | some ms => evolutionShift ε 2 ms (Real.pi * p.1)

/-- How far the whole circuit is from the exact one. -/
def qaoaShift (ε : ℝ) (n : ℕ) (ts : List PTerm) (mixer : Option (List PTerm)) (steps : List (ℝ × ℝ)) : ℝ :=
  (steps.map (stepShift ε n ts mixer)).sum

/-- The number of passes over the amplitudes for the evolution of a word: basis changes, the ladder of `cx`, and the rotation. -/
def wordPasses (ops : List POp) : ℕ := 2 * xyCount ops + (2 * ops.length - 1)

/-- The number of passes for one step. -/
def stepPasses (n : ℕ) (ts : List PTerm) (mixer : Option (List PTerm)) : ℕ :=
  (ts.map (fun t => wordPasses t.ops)).sum +
    match mixer with
    | none => n
    | some ms => (ms.map (fun t => wordPasses t.ops)).sum

/-- All angles of the circuit are at most `Θ`. -/
structure AnglesWithin (ε Θ : ℝ) (ts : List PTerm) (mixer : Option (List PTerm)) (steps : List (ℝ × ℝ)) : Prop where
  basis : (1 + ε) * (Real.pi / 2) ≤ Θ
  cost : ∀ p ∈ steps, ∀ t ∈ ts, (1 + ε) ^ 5 * (2 * ‖t.coeff‖ * |2 * Real.pi * p.2|) ≤ Θ
  mix : ∀ p ∈ steps, ∀ ms ∈ mixer, ∀ t ∈ ms, (1 + ε) ^ 4 * (2 * ‖t.coeff‖ * |Real.pi * p.1|) ≤ Θ
  rot : ∀ p ∈ steps, mixer = none → (1 + ε) ^ 2 * |Real.pi * p.1| ≤ Θ

end

end Spec
