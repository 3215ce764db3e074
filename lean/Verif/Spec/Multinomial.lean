import Mathlib.MeasureTheory.Integral.Bochner.Basic
import Mathlib.Probability.Notation

/-!
# Specification: random numbers of draws
-/

namespace Spec

open MeasureTheory

/-- `draw ω ps` are the numbers of draws of every category, `N` draws in all, when the categories have probabilities `ps`:
one number per category, whose mean is `N` times the probability. Multinomial distributions have this property. -/
def DrawsOnAverage {Ω : Type} [MeasurableSpace Ω] (P : Measure Ω) (N : ℕ) (draw : Ω → List ℝ → List ℕ) : Prop :=
  ∀ ps : List ℝ, (∀ p ∈ ps, 0 ≤ p) → ps.sum = 1 → (∀ ω, (draw ω ps).length = ps.length) ∧
    ∀ i, Integrable (fun ω => ((draw ω ps).getD i 0 : ℝ)) P ∧ ∫ ω, ((draw ω ps).getD i 0 : ℝ) ∂P = N * ps.getD i 0

end Spec
