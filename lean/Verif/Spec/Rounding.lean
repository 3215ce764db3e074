import Verif.NpFloat
import Verif.Spec.Circuit

/-!
# Specification: accuracy of floating-point arithmetic and how errors grow
-/

namespace Spec

open Blueqat (G1 G2 G3 FloatOps Arr)

noncomputable section

/-- The arithmetic `F` is accurate to `ε`: results of `+`, `-`, `*`, `/` and square roots have a relative error of at
most `ε`, cosines, sines and `1 / sqrt(2)` an absolute error of at most `ε`; sums of at most `2^n` squares have a relative
error of at most `ν`. (IEEE double precision without overflow and underflow, see DESIGN.md.) -/
structure Accurate (F : FloatOps) (n : ℕ) (ε ν : ℝ) : Prop where
  add : ∀ a b, ‖F.add a b - (a + b)‖ ≤ ε * ‖a + b‖
  sub : ∀ a b, ‖F.sub a b - (a - b)‖ ≤ ε * ‖a - b‖
  mul : ∀ a b, ‖F.mul a b - a * b‖ ≤ ε * ‖a * b‖
  div : ∀ (z : ℂ) (x : ℝ), x ≠ 0 → ‖F.div z x - z / x‖ ≤ ε * ‖z / x‖
  radd : ∀ x y, |F.radd x y - (x + y)| ≤ ε * |x + y|
  rsub : ∀ x y, |F.rsub x y - (x - y)| ≤ ε * |x - y|
  rmul : ∀ x y, |F.rmul x y - x * y| ≤ ε * |x * y|
  cos : ∀ x, |F.cos x - Real.cos x| ≤ ε
  sin : ∀ x, |F.sin x - Real.sin x| ≤ ε
  sqrt2Inv : |F.sqrt2Inv - 1 / Real.sqrt 2| ≤ ε
  sqrt : ∀ x, 0 ≤ x → |F.sqrt x - Real.sqrt x| ≤ ε * Real.sqrt x
  normPow2 : ∀ v : Arr, v.length ≤ 2 ^ n → |F.normPow2 v - (v.map fun z => ‖z‖ ^ 2).sum| ≤ ν * (v.map fun z => ‖z‖ ^ 2).sum
  par : ∀ x, |F.par x - x| ≤ ε * |x|

/-- The number of passes over the amplitudes the simulator makes for an operation. -/
def Elem.passes : Elem → ℕ
  | .one k _ => match k with
    | .i => 0
    | _ => 1
  | .two k _ _ => match k with
    | .cx | .cz | .crx _ | .cry _ | .crz _ | .cphase _ => 1
    | .cy | .ch | .rzz _ | .swap => 3
    | .cu1 _ | .cu2 _ _ | .cu3 _ _ _ => 5
    | .rxx _ | .ryy _ => 7
  | .three k _ _ _ => match k with
    | .ccz => 1
    | .ccx => 3
    | .cswap => 5
  | .meas _ => 1
  | .reset _ => 1

/-- The passes of a list of operations together. -/
def passes (es : List Elem) : ℕ := (es.map Elem.passes).sum

/-- The relative error of one pass, when angles are at most `Θ`. -/
def passErr (ε Θ : ℝ) : ℝ := 44 * (1 + Θ) * ε

/-- The error of the computed probability of a measurement result, and of its complement, when the state has an error
of `B`. -/
def probErr (ε ν B : ℝ) : ℝ := (1 + ε) * (1 + ν) * (1 + B) ^ 2 - 1

/-- The probability of what the machine measures on qubit `t` with its next random number. -/
def resultProb (n t : ℕ) (s : MState) : ℝ :=
  if s.rnd 0 < prob n t false s.psi then prob n t false s.psi else prob n t true s.psi

/-- The error of the state after an operation on a machine in the state `s`, from the error `B` before it. -/
def Elem.errStep (ε ν Θ : ℝ) (n : ℕ) (s : MState) (B : ℝ) : Elem → ℝ
  | .meas t | .reset t => 8 * probErr ε ν B / resultProb n t s
  | e => (1 + passErr ε Θ) ^ e.passes * (1 + B) - 1

/-- The error after a list of operations. -/
def errBound (ε ν Θ : ℝ) (n : ℕ) : List Elem → MState → ℝ → ℝ
  | [], _, B => B
  | e :: es, s, B => errBound ε ν Θ n es (e.step phSim n s) (e.errStep ε ν Θ n s B)

/-- The operation is not a measurement or reset, or its random number is not within the error of the probability it is
compared with, and the result has a probability above four times the error. -/
def Elem.Clear (ε ν : ℝ) (n : ℕ) (s : MState) (B : ℝ) : Elem → Prop
  | .meas t | .reset t =>
    probErr ε ν B < |s.rnd 0 - prob n t false s.psi| ∧ 4 * probErr ε ν B ≤ resultProb n t s
  | _ => True

/-- All measurements on the way are clear. -/
def AllClear (ε ν Θ : ℝ) (n : ℕ) : List Elem → MState → ℝ → Prop
  | [], _, _ => True
  | e :: es, s, B => e.Clear ε ν n s B ∧ AllClear ε ν Θ n es (e.step phSim n s) (e.errStep ε ν Θ n s B)

/-- Every shot of a run is clear. -/
def ShotsClear (ε ν Θ : ℝ) (n : ℕ) (es : List Elem) : ℕ → (ℕ → ℝ) → Prop
  | 0, _ => True
  | k + 1, rnd => AllClear ε ν Θ n es (initState rnd) 0 ∧
    ShotsClear ε ν Θ n es k (steps phSim n es (initState rnd)).rnd

/-- The random numbers left after `k` shots. -/
def randomsAfter (n : ℕ) (es : List Elem) : ℕ → (ℕ → ℝ) → (ℕ → ℝ)
  | 0, rnd => rnd
  | k + 1, rnd => randomsAfter n es k (steps phSim n es (initState rnd)).rnd

/-- Rounding with a relative error of at most `u` (for IEEE doubles in the normal range `u = 2^-53`). -/
def RoundsTo (fl : ℝ → ℝ) (u : ℝ) : Prop := ∀ x, |fl x - x| ≤ u * |x|

end

end Spec
