import Verif.NbFloat
import Verif.Spec.Rounding
import Verif.Spec.Angles

/-!
# Specification: accuracy of compiled kernels
-/

namespace Spec

open Blueqat

noncomputable section

/-- What the compiled iteration writes is within `C (|t| + |u|)` of what the source says. -/
def StoresNear (S : ℕ → ℕ → ℂ → ℂ → ℂ) (body : ℕ → ℕ → List Ins) (C : ℝ) : Prop :=
  ∀ i0 i1 j a f, (body i0 i1)[j]? = some (.store a f) → ∀ t u, ‖S j a t u - f t u‖ ≤ C * (‖t‖ + ‖u‖)

/-- What the compiled iteration writes has a relative error of at most `C`. -/
def StoresRel (S : ℕ → ℕ → ℂ → ℂ → ℂ) (body : ℕ → ℕ → List Ins) (C : ℝ) : Prop :=
  ∀ i0 i1 j a f, (body i0 i1)[j]? = some (.store a f) → ∀ t u, ‖S j a t u - f t u‖ ≤ C * ‖f t u‖

/-- The compiled kernels for `n` qubits are accurate to `ε`: for gates with angles up to `Θ` they write values with an
error of at most `22 (1 + Θ) ε` of what they read; scaling after a measurement has a relative error of at most `4 ε`,
sums of squares of at most `ν`. -/
structure NbAccurate (K : NbFloat) (n : ℕ) (ε ν Θ : ℝ) : Prop where
  one : ∀ k b, nbBody1 k = some b → (∀ x ∈ (Elem.one k 0).angles, |x| ≤ Θ) →
    StoresNear (K.store (.one k)) b (22 * (1 + Θ) * ε)
  two : ∀ k b, nbBody2 k = some b → (∀ x ∈ (Elem.two k 0 1).angles, |x| ≤ Θ) →
    StoresNear (K.store (.two k)) b (22 * (1 + Θ) * ε)
  three : ∀ k b, nbBody3 k = some b → StoresNear (K.store (.three k)) b (22 * (1 + Θ) * ε)
  reduce0 : ∀ p > 0, StoresRel (K.store (.reduce0 p)) (insReduce0 (1 / √p : ℝ)) (4 * ε)
  reduce1 : ∀ p < 1, StoresRel (K.store (.reduce1 p)) (insReduce1 (1 / √(1 - p) : ℝ)) (4 * ε)
  reset1 : ∀ p < 1, StoresRel (K.store (.reset1 p)) (insReset1 (1 / √(1 - p) : ℝ)) (4 * ε)
  nu : 0 ≤ ν
  p0 : ∀ t < n, ∀ q : Arr, q.length = 2 ^ n → |K.p0 n t q - nbP0 n t q| ≤ ν * nbP0 n t q

end

end Spec
