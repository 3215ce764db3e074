import Verif.VqeFloat
import Verif.Spec.Rounding
import Verif.Spec.Angles
import Verif.Spec.Run
import Verif.Spec.Vqe

/-!
# Specification: errors of probabilities and energies in floating point
-/

namespace Spec

open Blueqat (VqeOps POp PExpr StateRunner Gate)

noncomputable section

/-- The arithmetic `V` has relative errors of at most `δ`. -/
structure VqeAccurate (V : VqeOps) (δ : ℝ) : Prop where
  sq : ∀ x, |V.sq x - x ^ 2| ≤ δ * x ^ 2
  add : ∀ x y, |V.add x y - (x + y)| ≤ δ * |x + y|
  scale : ∀ (p : ℝ) (c : ℂ), ‖V.scale p c - p * c‖ ≤ δ * ‖p * c‖
  cadd : ∀ a b, ‖V.cadd a b - (a + b)‖ ≤ δ * ‖a + b‖
  csub : ∀ a b, ‖V.csub a b - (a - b)‖ ≤ δ * ‖a - b‖

/-- Running circuits of unitary gates on `n` qubits with angles up to `Θ` gives the documented state up to a global phase,
with an error of at most `(1 + κ)^N - 1` in the Euclidean norm after `N` passes, and uses no random numbers. -/
def RunsNear (R : StateRunner) (n : ℕ) (Θ κ : ℝ) : Prop :=
  ∀ (gates : List Gate) (es : List Elem) (rnd : ℕ → ℝ), InUnit rnd → GatesDenote n gates es → (∀ e ∈ es, e.Valid n) →
    (∀ e ∈ es, e.IsUnitary) → (∀ e ∈ es, ∀ x ∈ e.angles, |x| ≤ Θ) →
    ∃ (z : ℂ) (φ : Vec), ‖z‖ = 1 ∧ R ⟨n, gates⟩ rnd = .ok (amplitudes n φ, rnd) ∧
      √(∑ i ∈ Finset.range (2 ^ n), ‖φ i - z * unitaries phDoc es (fun j => if j = 0 then 1 else 0) i‖ ^ 2) ≤
        (1 + κ) ^ passes es - 1

/-- The number of letters `X` and `Y` in a Pauli word: each needs a gate before the qubits are measured. -/
def xyCount (ops : List POp) : ℕ := (ops.filter (fun o => o.p = .X ∨ o.p = .Y)).length

/-- The bound on the error of the probability of an outcome: `N` passes of relative error `κ` over `2^n` amplitudes,
whose squares are then added in arithmetic accurate to `δ`. -/
def outcomeErr (δ κ : ℝ) (n N : ℕ) : ℝ := (1 + δ) ^ (2 ^ n + 2) * (1 + κ) ^ (2 * N) - 1

/-- The number of additions and multiplications on the way of a probability into the energy of `H`, at most. -/
def energyDepth (n : ℕ) (H : PExpr) : ℕ := 2 ^ n + 3 + (H.terms.map (fun t => 2 ^ t.ops.length)).sum

/-- The bound on the error of the energy of `H`, for a circuit of `N` passes. -/
def energyErr (δ κ : ℝ) (n N : ℕ) (H : PExpr) : ℝ :=
  (H.terms.map (fun t => ‖t.coeff‖ * ((1 + δ) ^ energyDepth n H * (1 + κ) ^ (2 * (N + xyCount t.ops)) - 1))).sum

end

end Spec
