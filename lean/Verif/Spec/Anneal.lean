import Verif.Spec.Qubo
import Mathlib.Analysis.SpecialFunctions.Log.Basic
import Mathlib.Analysis.Complex.Trigonometric

/-!
# Specification: simulated annealing over assignments of bits
-/

namespace Spec

/-- The assignment with bit `x` inverted. -/
def flipAt (c : ℕ → Bool) (x : ℕ) : ℕ → Bool := fun i => if i = x then !(c i) else c i

/-- An assignment as numbers 0 and 1. -/
noncomputable def bitVals (c : ℕ → Bool) : ℕ → ℝ := fun i => if c i then 1 else 0

/-- An assignment as spins 1 and -1. -/
noncomputable def spinsOf (c : ℕ → Bool) : ℕ → ℝ := fun i => if c i then 1 else -1

/-- The Metropolis rule at temperature `T` with random number `u`: go from `c` to `f` exactly if this lowers the energy `H` or
if `exp(-(change)/T)` exceeds `u`; otherwise stay. -/
def Metropolis {α : Type} (H : α → ℝ) (T u : ℝ) (c f c' : α) : Prop :=
  ((H f < H c ∨ u < Real.exp (-(H f - H c) / T)) ∧ c' = f) ∨
  (¬ (H f < H c ∨ u < Real.exp (-(H f - H c) / T)) ∧ c' = c)

/-- `k` Metropolis steps at temperature `T` on `n` bits. -/
inductive Sweep (H : (ℕ → Bool) → ℝ) (T : ℝ) (n : ℕ) : ℕ → (ℕ → Bool) → (ℕ → Bool) → Prop
  | nil (c) : Sweep H T n 0 c c
  | step {k c c' c''} (x : ℕ) (u : ℝ) (hx : x < n) (h : Metropolis H T u c (flipAt c x) c') (t : Sweep H T n k c' c'') :
    Sweep H T n (k + 1) c c''

/-- Annealing from temperature `T` down to `target` by factors `R`, with sweeps of `ite` steps. The list has the energy after
each sweep. -/
inductive Anneal (H : (ℕ → Bool) → ℝ) (n ite : ℕ) (R target : ℝ) : ℝ → (ℕ → Bool) → List ℝ → (ℕ → Bool) → Prop
  | stop {T c} (h : ¬ T > target) : Anneal H n ite R target T c [] c
  | sweep {T c c' es d} (h : T > target) (s : Sweep H T n ite c c') (t : Anneal H n ite R target (T * R) c' es d) :
    Anneal H n ite R target T c (H c' :: es) d

/-- What one shot returns: the bits of the last assignment `d` of an annealing run, and the energies of the first assignment
and after every sweep. -/
def Shot (H : (ℕ → Bool) → ℝ) (n ite : ℕ) (R target Ts : ℝ) (bits : List ℤ) (es : List ℝ) : Prop :=
  ∃ c d es', Anneal H n ite R target Ts c es' d ∧ es = H c :: es' ∧
    bits = (List.range n).map (fun i => if d i then 1 else 0)

/-! ## Quantum annealing: `P` copies (slices) of the spins, coupled to their neighbours on a ring -/

open Finset in
/-- `Σ_p Σ_x s_p(x) s_{p+1}(x)` around the ring of `P` slices. -/
noncomputable def ringSum (P n : ℕ) (s : ℕ → ℕ → ℝ) : ℝ :=
  ∑ p ∈ range P, ∑ x ∈ range n, s p x * s ((p + 1) % P) x

open Finset in
/-- The mean of the energies of the slices plus `κ` times the coupling of neighbours. -/
noncomputable def ringEnergy (P n : ℕ) (H : (ℕ → Bool) → ℝ) (κ : ℝ) (c : ℕ → ℕ → Bool) : ℝ :=
  (∑ p ∈ range P, H (c p)) / P + κ * ringSum P n (fun p => spinsOf (c p))

/-- Invert bit `x` of slice `y`. -/
def flipSlice (c : ℕ → ℕ → Bool) (y x : ℕ) : ℕ → ℕ → Bool := fun p => if p = y then flipAt (c p) x else c p

/-- `(T/2) log coth(G/(T P))`. -/
noncomputable def ringCoupling (T : ℝ) (P : ℕ) (G : ℝ) : ℝ := T / 2 * Real.log (1 / Real.tanh (G / T / P))

/-- `k` Metropolis steps at temperature `T` on `P` slices of `n` bits. -/
inductive RingSweep (H : (ℕ → ℕ → Bool) → ℝ) (T : ℝ) (P n : ℕ) : ℕ → (ℕ → ℕ → Bool) → (ℕ → ℕ → Bool) → Prop
  | nil (c) : RingSweep H T P n 0 c c
  | step {k c c' c''} (y x : ℕ) (u : ℝ) (hy : y < P) (hx : x < n) (h : Metropolis H T u c (flipSlice c y x) c')
    (t : RingSweep H T P n k c' c'') : RingSweep H T P n (k + 1) c c''

/-- Annealing the field from `G` down to `Gf` by factors `R`; moves are decided by `Hmove`, and `Hrec` is recorded after
every sweep. -/
inductive RingAnneal (Hmove Hrec : ℝ → (ℕ → ℕ → Bool) → ℝ) (T : ℝ) (P n ite : ℕ) (R Gf : ℝ) :
    ℝ → (ℕ → ℕ → Bool) → List ℝ → (ℕ → ℕ → Bool) → Prop
  | stop {G c} (h : ¬ G > Gf) : RingAnneal Hmove Hrec T P n ite R Gf G c [] c
  | sweep {G c c' es d} (h : G > Gf) (s : RingSweep (Hmove G) T P n ite c c')
    (t : RingAnneal Hmove Hrec T P n ite R Gf (G * R) c' es d) :
    RingAnneal Hmove Hrec T P n ite R Gf G c (Hrec G c' :: es) d

end Spec
