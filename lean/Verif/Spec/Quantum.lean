import Mathlib.Analysis.SpecialFunctions.Trigonometric.Basic
import Mathlib.Data.Nat.Bitwise

/-!
# Specification: textbook gates on state vectors

A state is its amplitude function `ψ : ℕ → ℂ`: `ψ i` is the amplitude of the basis state whose qubit `k`
has the value of bit `k` of `i` (qubit 0 is the least significant bit). An `n`-qubit state is given by
`ψ 0, ..., ψ (2^n - 1)`. Nothing here mentions the model of the program.
-/

namespace Spec

open Complex

/-- A 2x2 complex matrix `[[a, b], [c, d]]`. -/
@[ext] structure M2 where
  a : ℂ
  b : ℂ
  c : ℂ
  d : ℂ

/-- State vectors as amplitude functions. -/
abbrev Vec := ℕ → ℂ

/-- The basis index with bit `t` inverted. -/
def flipBit (t i : ℕ) : ℕ := i ^^^ 2 ^ t

/-- Apply the 2x2 matrix `M` to qubit `t`: the amplitudes of the two basis states that differ in bit `t`
are transformed by `M`. -/
def app (M : M2) (t : ℕ) (ψ : Vec) : Vec := fun i =>
  if i.testBit t then M.c * ψ (flipBit t i) + M.d * ψ i
  else M.a * ψ i + M.b * ψ (flipBit t i)

/-- Controlled operation: `U` acts on the part of the state where qubit `c` is 1. -/
def ctrl (c : ℕ) (U : Vec → Vec) (ψ : Vec) : Vec := fun i => if i.testBit c then U ψ i else ψ i

/-- `e^{iθ}`. -/
noncomputable def cis (θ : ℝ) : ℂ := Complex.exp (θ * I)

noncomputable section

/-! ## Textbook matrices -/

def mI : M2 := ⟨1, 0, 0, 1⟩
def mX : M2 := ⟨0, 1, 1, 0⟩
def mY : M2 := ⟨0, -I, I, 0⟩
def mZ : M2 := ⟨1, 0, 0, -1⟩
def mH : M2 := ⟨1 / (√2 : ℝ), 1 / (√2 : ℝ), 1 / (√2 : ℝ), -(1 / (√2 : ℝ))⟩
/-- Phase gate `diag(1, e^{iθ})`. -/
def mPhase (θ : ℝ) : M2 := ⟨1, 0, 0, cis θ⟩
def mS : M2 := ⟨1, 0, 0, I⟩
def mSdg : M2 := ⟨1, 0, 0, -I⟩
def mT : M2 := mPhase (Real.pi / 4)
def mTdg : M2 := mPhase (-(Real.pi / 4))
/-- `e^{-iθX/2}`. -/
def mRX (θ : ℝ) : M2 :=
  ⟨Real.cos (θ / 2), -I * Real.sin (θ / 2), -I * Real.sin (θ / 2), Real.cos (θ / 2)⟩
/-- `e^{-iθY/2}`. -/
def mRY (θ : ℝ) : M2 :=
  ⟨Real.cos (θ / 2), -Real.sin (θ / 2), Real.sin (θ / 2), Real.cos (θ / 2)⟩
/-- `e^{-iθZ/2}`. -/
def mRZ (θ : ℝ) : M2 := ⟨cis (-(θ / 2)), 0, 0, cis (θ / 2)⟩
/-- The U3 gate in the convention `RZ(φ) RY(θ) RZ(λ)` (determinant 1), which is Blueqat's and the OpenQASM 2
specification's. -/
def mU3 (θ φ lam : ℝ) : M2 :=
  ⟨cis (-((φ + lam) / 2)) * Real.cos (θ / 2), -(cis (-((φ - lam) / 2)) * Real.sin (θ / 2)),
    cis ((φ - lam) / 2) * Real.sin (θ / 2), cis ((φ + lam) / 2) * Real.cos (θ / 2)⟩

/-! ## Two- and three-qubit operations -/

/-- Exchange bits `a` and `b` of an index. -/
def swapBits (a b i : ℕ) : ℕ :=
  if i.testBit a = i.testBit b then i else flipBit a (flipBit b i)

/-- SWAP of qubits `a` and `b`. -/
def swapOp (a b : ℕ) (ψ : Vec) : Vec := fun i => ψ (swapBits a b i)

/-- `e^{-iθ (P ⊗ P)/2} = cos(θ/2) - i sin(θ/2) P ⊗ P` for a Pauli matrix `P` on qubits `a`, `b`. -/
def expPP (P : M2) (θ : ℝ) (a b : ℕ) (ψ : Vec) : Vec := fun i =>
  Real.cos (θ / 2) * ψ i - I * Real.sin (θ / 2) * app P a (app P b ψ) i

/-! ## Norm -/

/-- Squared norm of an `n`-qubit state. -/
def normSqN (n : ℕ) (ψ : Vec) : ℝ := ∑ i ∈ Finset.range (2 ^ n), ‖ψ i‖ ^ 2

/-- Probability that qubit `t` is measured as `b`. -/
def prob (n t : ℕ) (b : Bool) (ψ : Vec) : ℝ :=
  ∑ i ∈ (Finset.range (2 ^ n)).filter (fun i => i.testBit t = b), ‖ψ i‖ ^ 2

end

end Spec
