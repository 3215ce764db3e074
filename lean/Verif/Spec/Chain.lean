import Mathlib.Data.Matrix.Mul
import Mathlib.Data.Fintype.BigOperators
import Mathlib.Data.Fintype.Pi
import Mathlib.Analysis.SpecialFunctions.Exp
import Mathlib.Probability.ProductMeasure
import Verif.Spec.Born

/-!
# Specification: annealing as a random process on assignments of bits
-/

namespace Spec

open MeasureTheory

noncomputable section

/-- The assignment with bit `x` inverted. -/
def flipOne {ι : Type} [DecidableEq ι] (c : ι → Bool) (x : ι) : ι → Bool := Function.update c x (!c x)

/-- The probability of the Metropolis rule to go from `c` to `f` at temperature `T`. -/
def acceptProb {α : Type} (H : α → ℝ) (T : ℝ) (c f : α) : ℝ := min 1 (Real.exp (-(H f - H c) / T))

/-- Transition probabilities of one step: a bit is chosen uniformly and inverted with the Metropolis probability. -/
def metropolisMatrix {ι : Type} [Fintype ι] [DecidableEq ι] (H : (ι → Bool) → ℝ) (T : ℝ) :
    Matrix (ι → Bool) (ι → Bool) ℝ := fun c d =>
  ∑ x : ι, (1 / Fintype.card ι : ℝ) * ((if d = flipOne c x then acceptProb H T c (flipOne c x) else 0) +
    if d = c then 1 - acceptProb H T c (flipOne c x) else 0)

/-- The Boltzmann distribution of the energy `H` at temperature `T`. -/
def boltzmann {ι : Type} [Fintype ι] [DecidableEq ι] (H : (ι → Bool) → ℝ) (T : ℝ) (c : ι → Bool) : ℝ :=
  Real.exp (-H c / T) / ∑ d, Real.exp (-H d / T)

/-- The temperatures `T, T R, T R², …` above `target`. -/
inductive Schedule (R target : ℝ) : ℝ → List ℝ → Prop
  | stop {T} (h : ¬ T > target) : Schedule R target T []
  | step {T ts} (h : T > target) (t : Schedule R target (T * R) ts) : Schedule R target T (T :: ts)

/-- Transition probabilities of annealing: `ite` steps at each temperature (or field) of the list. -/
def annealMatrix {α : Type} [Fintype α] [DecidableEq α] (M : ℝ → Matrix α α ℝ) (ite : ℕ) : List ℝ → Matrix α α ℝ
  | [] => 1
  | T :: ts => M T ^ ite * annealMatrix M ite ts

/-- The probability of `d` after annealing from a uniformly random assignment. -/
def annealProb {ι : Type} [Fintype ι] [DecidableEq ι] (M : ℝ → Matrix (ι → Bool) (ι → Bool) ℝ) (ite : ℕ) (ts : List ℝ)
    (d : ι → Bool) : ℝ :=
  (1 / 2) ^ Fintype.card ι * ∑ c, annealMatrix M ite ts c d

/-- The energy of a QUBO (its upper triangle) at an assignment of bits. -/
def quboAt (n : ℕ) (Q : ℕ → ℕ → ℝ) (c : Fin n → Bool) : ℝ :=
  ∑ i : Fin n, ∑ j : Fin n, if i ≤ j ∧ c i = true ∧ c j = true then Q i j else 0

/-- `P` copies (slices) of `n` bits on a ring: the mean of the energies of the slices, plus `κ` times the number of bits that
agree with the same bit of the next slice minus the number of those that differ. -/
def ringAt (P n : ℕ) [NeZero P] (H : (Fin n → Bool) → ℝ) (κ : ℝ) (c : Fin P × Fin n → Bool) : ℝ :=
  (∑ p : Fin P, H fun i => c (p, i)) / P + κ * ∑ p : Fin P, ∑ i : Fin n, if c (p, i) = c (p + 1, i) then 1 else -1

/-- The assignment as a list of 0 and 1. -/
def bitList {n : ℕ} (c : Fin n → Bool) : List ℤ := List.ofFn fun i => if c i then 1 else 0

/-- The random numbers of an annealing run on `n` bits: signs, numbers below `n`, and reals in `[0, 1)`. -/
abbrev Draws := (ℕ → Bool) × ((ℕ → ℕ) × (ℕ → ℝ))

/-- The uniform distribution on `{false, true}`. -/
def coin : Measure Bool := (2⁻¹ : ENNReal) • (Measure.dirac false + Measure.dirac true)

/-- The uniform distribution on `{0, …, n - 1}`. -/
def die (n : ℕ) : Measure ℕ := (n : ENNReal)⁻¹ • ∑ x ∈ Finset.range n, Measure.dirac x

instance : IsProbabilityMeasure coin := ⟨by
  simp only [coin, Measure.smul_apply, Measure.add_apply, measure_univ, smul_eq_mul]
  rw [one_add_one_eq_two, ENNReal.inv_mul_cancel (by norm_num) (by norm_num)]⟩

instance (n : ℕ) [NeZero n] : IsProbabilityMeasure (die n) := ⟨by
  simp only [die, Measure.smul_apply, Measure.finset_sum_apply, measure_univ, smul_eq_mul, Finset.sum_const, Finset.card_range,
    nsmul_eq_mul, mul_one]
  exact ENNReal.inv_mul_cancel (by simpa using NeZero.ne n) (ENNReal.natCast_ne_top n)⟩

/-- All draws are independent and uniform. -/
def draws (n : ℕ) [NeZero n] : Measure Draws :=
  (Measure.infinitePi fun _ => coin).prod ((Measure.infinitePi fun _ => die n).prod randoms)

instance (n : ℕ) [NeZero n] : IsProbabilityMeasure (draws n) := by unfold draws; infer_instance

end

end Spec
