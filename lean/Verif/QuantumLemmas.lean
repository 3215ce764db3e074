import Verif.Spec.Quantum
import Mathlib.Tactic.Ring
import Mathlib.Tactic.LinearCombination
import Mathlib.Tactic.FieldSimp

/-!
# Lemmas about bit flips, one-qubit operators and multiplexers
-/

namespace Spec

open Complex

theorem testBit_flipBit (t i k : ℕ) : (flipBit t i).testBit k = (i.testBit k != decide (t = k)) := by
  simp [flipBit, Nat.testBit_xor, Nat.testBit_two_pow]

@[simp] theorem testBit_flipBit_self (t i : ℕ) : (flipBit t i).testBit t = !i.testBit t := by
  simp [testBit_flipBit]

theorem testBit_flipBit_ne {t k : ℕ} (h : t ≠ k) (i : ℕ) : (flipBit t i).testBit k = i.testBit k := by
  simp [testBit_flipBit, h]

@[simp] theorem flipBit_flipBit (t i : ℕ) : flipBit t (flipBit t i) = i := by
  simp [flipBit]

theorem flipBit_comm (s t i : ℕ) : flipBit s (flipBit t i) = flipBit t (flipBit s i) := by
  simp only [flipBit, Nat.xor_assoc]; rw [Nat.xor_comm (2 ^ t)]

theorem flipBit_lt {t n i : ℕ} (ht : t < n) (hi : i < 2 ^ n) : flipBit t i < 2 ^ n :=
  Nat.xor_lt_two_pow hi (Nat.pow_lt_pow_right (by norm_num) ht)

theorem flipBit_lt_iff {t n i : ℕ} (ht : t < n) : flipBit t i < 2 ^ n ↔ i < 2 ^ n :=
  ⟨fun h => by simpa using flipBit_lt ht h, flipBit_lt ht⟩

theorem flipBit_injective (t : ℕ) : Function.Injective (flipBit t) := fun a b h => by
  have := congrArg (flipBit t) h; simpa using this

/-- Matrix product. -/
def M2.mul (M N : M2) : M2 :=
  ⟨M.a * N.a + M.b * N.c, M.a * N.b + M.b * N.d, M.c * N.a + M.d * N.c, M.c * N.b + M.d * N.d⟩

/-- Scalar multiple of the identity. -/
def M2.scal (z : ℂ) : M2 := ⟨z, 0, 0, z⟩

/-- Uniformly controlled one-qubit operator: the matrix on qubit `t` may depend on the other bits. -/
def mux (t : ℕ) (F : ℕ → M2) (ψ : Vec) : Vec := fun i =>
  if i.testBit t then (F i).c * ψ (flipBit t i) + (F i).d * ψ i
  else (F i).a * ψ i + (F i).b * ψ (flipBit t i)

theorem app_eq_mux (M : M2) (t : ℕ) (ψ : Vec) : app M t ψ = mux t (fun _ => M) ψ := rfl

theorem ctrl_mux (c t : ℕ) (F : ℕ → M2) (ψ : Vec) :
    ctrl c (mux t F) ψ = mux t (fun i => if i.testBit c then F i else mI) ψ := by
  funext i
  simp only [ctrl, mux, mI]
  by_cases hc : i.testBit c <;> by_cases ht : i.testBit t <;> simp [hc, ht]

theorem ctrl_app (c t : ℕ) (M : M2) (ψ : Vec) :
    ctrl c (app M t) ψ = mux t (fun i => if i.testBit c then M else mI) ψ :=
  ctrl_mux c t (fun _ => M) ψ

theorem mux_mux (t : ℕ) (F G : ℕ → M2) (hG : ∀ i, G (flipBit t i) = G i) (ψ : Vec) :
    mux t F (mux t G ψ) = mux t (fun i => (F i).mul (G i)) ψ := by
  funext i
  simp only [mux, testBit_flipBit_self, flipBit_flipBit, hG, M2.mul]
  by_cases ht : i.testBit t <;> simp [ht] <;> ring

theorem mux_congr {t : ℕ} {F G : ℕ → M2} (h : ∀ i, F i = G i) (ψ : Vec) : mux t F ψ = mux t G ψ := by
  have : F = G := funext h
  rw [this]

theorem mux_one (t : ℕ) (ψ : Vec) : mux t (fun _ => mI) ψ = ψ := by
  funext i; simp only [mux, mI]; by_cases ht : i.testBit t <;> simp [ht]

/-- A diagonal operator on another qubit is a multiplexed scalar. -/
theorem diag_eq_mux (c t : ℕ) (z0 z1 : ℂ) (ψ : Vec) :
    app ⟨z0, 0, 0, z1⟩ c ψ = mux t (fun i => M2.scal (if i.testBit c then z1 else z0)) ψ := by
  funext i
  simp only [app, mux, M2.scal]
  by_cases hc : i.testBit c <;> by_cases ht : i.testBit t <;> simp [hc, ht]

theorem cis_zero : cis 0 = 1 := by simp [cis]

theorem cis_add (a b : ℝ) : cis (a + b) = cis a * cis b := by
  simp only [cis, ← Complex.exp_add]; congr 1; push_cast; ring

theorem cis_neg (a : ℝ) : cis (-a) = (cis a)⁻¹ := by
  simp only [cis, ← Complex.exp_neg]; congr 1; push_cast; ring

theorem cis_ne_zero (a : ℝ) : cis a ≠ 0 := Complex.exp_ne_zero _

theorem norm_cis (a : ℝ) : ‖cis a‖ = 1 := by
  simp only [cis]; exact Complex.norm_exp_ofReal_mul_I a

theorem cis_eq (a : ℝ) : cis a = Real.cos a + Real.sin a * I := by
  simp only [cis, Complex.exp_mul_I, Complex.ofReal_cos, Complex.ofReal_sin]

theorem cis_sub (a b : ℝ) : cis (a - b) = cis a * (cis b)⁻¹ := by
  rw [sub_eq_add_neg, cis_add, cis_neg]

theorem cis_pi_div_two : cis (Real.pi / 2) = I := by
  rw [cis_eq]; simp

theorem cis_pi : cis Real.pi = -1 := by
  rw [cis_eq]; simp

theorem cis_mul_cis_neg (a : ℝ) : cis a * cis (-a) = 1 := by
  rw [← cis_add]; simp [cis_zero]

theorem sqrt2_sq : ((√2 : ℝ) : ℂ) * ((√2 : ℝ) : ℂ) = 2 := by
  rw [← Complex.ofReal_mul, Real.mul_self_sqrt (by norm_num)]; norm_num

theorem sqrt2_ne : ((√2 : ℝ) : ℂ) ≠ 0 := by
  intro h
  have := sqrt2_sq
  rw [h] at this; norm_num at this

end Spec
