import Verif.QuantumLemmas
import Verif.Spec.Circuit
import Mathlib.Tactic.Module

/-!
# Operator identities behind the fallbacks
-/

namespace Spec

open Complex
open Blueqat (G1 G2 G3 Gate)

noncomputable section

instance : Mul M2 := ⟨M2.mul⟩
instance : One M2 := ⟨mI⟩

theorem M2.mul_def (M N : M2) : M * N =
    ⟨M.a * N.a + M.b * N.c, M.a * N.b + M.b * N.d, M.c * N.a + M.d * N.c, M.c * N.b + M.d * N.d⟩ := rfl

theorem M2.one_def : (1 : M2) = ⟨1, 0, 0, 1⟩ := rfl

instance : Monoid M2 where
  mul_assoc a b c := by ext <;> simp only [M2.mul_def] <;> ring
  one_mul a := by ext <;> simp [M2.mul_def, M2.one_def]
  mul_one a := by ext <;> simp [M2.mul_def, M2.one_def]

theorem mI_eq_one : mI = 1 := rfl

theorem mux_mux' (t : ℕ) (F G : ℕ → M2) (hG : ∀ i, G (flipBit t i) = G i) (ψ : Vec) :
    mux t F (mux t G ψ) = mux t (fun i => F i * G i) ψ := mux_mux t F G hG ψ

theorem mRZ_mul (a b : ℝ) : mRZ a * mRZ b = mRZ (a + b) := by
  ext <;> simp [M2.mul_def, mRZ, ← cis_add] <;> congr 1 <;> ring

theorem mRX_mul (a b : ℝ) : mRX a * mRX b = mRX (a + b) := by
  have hI : I * I = -1 := I_mul_I
  ext <;> simp only [M2.mul_def, mRX, add_div, Real.cos_add, Real.sin_add] <;> push_cast <;>
    first
      | ring1
      | linear_combination (Complex.sin (a / 2) * Complex.sin (b / 2)) * hI

theorem mRY_mul (a b : ℝ) : mRY a * mRY b = mRY (a + b) := by
  ext <;> simp only [M2.mul_def, mRY, add_div, Real.cos_add, Real.sin_add] <;> push_cast <;> ring

theorem mRX_zero : mRX 0 = 1 := by ext <;> simp [mRX, M2.one_def]
theorem mRY_zero : mRY 0 = 1 := by ext <;> simp [mRY, M2.one_def]
theorem mRZ_zero : mRZ 0 = 1 := by ext <;> simp [mRZ, M2.one_def, cis_zero]

theorem mX_mX : mX * mX = 1 := by ext <;> simp [mX, M2.mul_def, M2.one_def]
theorem mY_mY : mY * mY = 1 := by ext <;> simp [mY, M2.mul_def, M2.one_def]
theorem mZ_mZ : mZ * mZ = 1 := by ext <;> simp [mZ, M2.mul_def, M2.one_def]
theorem mH_mH : mH * mH = 1 := by
  have h := sqrt2_sq
  have h0 := sqrt2_ne
  have h2 : (1 / ((√2 : ℝ) : ℂ)) * (1 / ((√2 : ℝ) : ℂ)) = 1 / 2 := by
    rw [div_mul_div_comm, h]; norm_num
  ext <;> simp only [mH, M2.mul_def, M2.one_def, mul_neg, neg_mul, neg_neg, h2] <;> norm_num

theorem mX_mRY_mX (a : ℝ) : mX * (mRY a * mX) = mRY (-a) := by
  ext <;> simp [mX, mRY, M2.mul_def, neg_div]
theorem mX_mRZ_mX (a : ℝ) : mX * (mRZ a * mX) = mRZ (-a) := by
  ext <;> simp [mX, mRZ, M2.mul_def, neg_div]
theorem mZ_mRX_mZ (a : ℝ) : mZ * (mRX a * mZ) = mRX (-a) := by
  ext <;> simp [mZ, mRX, M2.mul_def, neg_div]

theorem mU3_eq (θ φ lam : ℝ) : mU3 θ φ lam = mRZ φ * (mRY θ * mRZ lam) := by
  have e1 : cis (-((φ + lam) / 2)) = cis (-(φ / 2)) * cis (-(lam / 2)) := by
    rw [← cis_add]; congr 1; ring
  have e2 : cis (-((φ - lam) / 2)) = cis (-(φ / 2)) * cis (lam / 2) := by
    rw [← cis_add]; congr 1; ring
  have e3 : cis ((φ - lam) / 2) = cis (φ / 2) * cis (-(lam / 2)) := by
    rw [← cis_add]; congr 1; ring
  have e4 : cis ((φ + lam) / 2) = cis (φ / 2) * cis (lam / 2) := by
    rw [← cis_add]; congr 1; ring
  ext <;> simp only [mU3, mRZ, mRY, M2.mul_def, e1, e2, e3, e4] <;> ring

theorem mU3_zero (lam : ℝ) : mU3 0 0 lam = mRZ lam := by
  rw [mU3_eq, mRY_zero, mRZ_zero, one_mul, one_mul]

theorem mH_X_mH : mH * (mX * mH) = mZ := by
  have h := sqrt2_sq
  have h2 : (1 / ((√2 : ℝ) : ℂ)) * (1 / ((√2 : ℝ) : ℂ)) = 1 / 2 := by
    rw [div_mul_div_comm, h]; norm_num
  simp only [mH]
  generalize 1 / ((√2 : ℝ) : ℂ) = r at *
  ext <;> simp only [mX, mZ, M2.mul_def]
  · linear_combination 2 * h2
  · ring
  · ring
  · linear_combination -2 * h2

theorem mH_Z_mH : mH * (mZ * mH) = mX := by
  rw [← mH_X_mH]
  simp only [← mul_assoc]
  rw [mH_mH, one_mul, mul_assoc, mH_mH, mul_one]

theorem mS_eq : mS = mPhase (Real.pi / 2) := by simp [mS, mPhase, cis_pi_div_two]
theorem mSdg_eq : mSdg = mPhase (-Real.pi / 2) := by
  have : cis (-Real.pi / 2) = -I := by
    rw [neg_div, cis_neg, cis_pi_div_two]; simp
  simp [mSdg, mPhase, this]
theorem mTdg_eq : mTdg = mPhase (-Real.pi / 4) := by simp [mTdg, neg_div]

theorem mS_X_mSdg : mS * (mX * mSdg) = mY := by
  ext <;> simp [mS, mX, mSdg, mY, M2.mul_def]
theorem mS_mSdg : mS * mSdg = 1 := by
  ext <;> simp [mS, mSdg, M2.mul_def, M2.one_def]

theorem mRY_X_mRY : mRY (-Real.pi / 4) * (mX * mRY (Real.pi / 4)) = mH := by
  have e : mX * mRY (Real.pi / 4) = mRY (-(Real.pi / 4)) * mX := by
    rw [← mX_mRY_mX, mul_assoc, mul_assoc, mX_mX, mul_one]
  rw [e, ← mul_assoc, mRY_mul]
  have h1 : (-Real.pi / 4 + -(Real.pi / 4)) / 2 = -(Real.pi / 4) := by ring
  have hs : (√2 / 2 : ℂ) = 1 / √2 := by
    have h := sqrt2_sq
    have h0 := sqrt2_ne
    field_simp
    linear_combination h
  ext <;> simp [mRY, mX, mH, M2.mul_def, h1] <;>
    simpa using hs

end

end Spec
