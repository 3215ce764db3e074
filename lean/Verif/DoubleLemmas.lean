import Verif.Spec.Double
import Verif.Spec.Rounding
import Verif.Spec.PauliCommFloat
import Mathlib.Tactic.Linarith
import Mathlib.Tactic.Positivity
import Mathlib.Tactic.FieldSimp

/-!
# Lemmas: rounding to double precision
-/

set_option linter.unusedSimpArgs false
set_option linter.unusedVariables false

namespace Blueqat

open Spec

noncomputable section

theorem nearestEven_near (y : ℝ) : |(nearestEven y : ℝ) - y| ≤ 1 / 2 := by
  have h1 := Int.floor_le y
  have h2 := Int.lt_floor_add_one y
  rw [nearestEven, abs_le]
  split_ifs <;> push_cast <;> constructor <;> linarith

theorem nearestEven_int (n : ℤ) : nearestEven n = n := by simp [nearestEven]

theorem nearestEven_neg (y : ℝ) : nearestEven (-y) = -nearestEven y := by
  by_cases hy : ∃ n : ℤ, y = n
  · obtain ⟨n, rfl⟩ := hy
    rw [← Int.cast_neg, nearestEven_int, nearestEven_int]
  · have h1 := Int.floor_le y
    have h2 := Int.lt_floor_add_one y
    have hne : (⌊y⌋ : ℝ) ≠ y := fun h => hy ⟨_, h.symm⟩
    have h3 : (⌊y⌋ : ℝ) < y := lt_of_le_of_ne h1 hne
    have hf : ⌊-y⌋ = -(⌊y⌋ + 1) := by
      rw [Int.floor_eq_iff]
      push_cast
      constructor <;> linarith
    have hev : Even (-(⌊y⌋ + 1)) ↔ ¬ Even ⌊y⌋ := by
      rw [even_neg, Int.even_add_one]
    simp only [nearestEven, hf]
    push_cast
    by_cases c1 : y - ⌊y⌋ < 1 / 2
    · rw [if_neg (by linarith), if_pos (by linarith), if_pos c1]; ring
    · rw [if_neg c1]
      by_cases c2 : 1 / 2 < y - ⌊y⌋
      · rw [if_pos (by linarith), if_pos c2]
      · rw [if_neg (by linarith), if_neg (by linarith), if_neg c2]
        by_cases c3 : Even ⌊y⌋
        · rw [if_neg (by rw [hev]; simpa using c3), if_pos c3]; ring
        · rw [if_pos (by rw [hev]; simpa using c3), if_neg c3]

theorem roundDouble_zero : roundDouble 0 = 0 := by simp [roundDouble]

/-- Rounding to double precision has a relative error of at most `2⁻⁵³`. -/
theorem roundDouble_rounds : RoundsTo roundDouble (1 / 2 ^ 53) := by
  intro x
  by_cases hx : x = 0
  · subst hx; simp [roundDouble]
  · rw [roundDouble, if_neg hx]
    have hpos : 0 < |x| := abs_pos.2 hx
    have hlog := Int.zpow_log_le_self (b := 2) (r := |x|) (by norm_num) hpos
    set e := Int.log 2 |x| - 52 with he
    have h2 : (0 : ℝ) < 2 ^ e := by positivity
    have hn := nearestEven_near (x / 2 ^ e)
    have e1 : (nearestEven (x / 2 ^ e) : ℝ) * 2 ^ e - x = ((nearestEven (x / 2 ^ e) : ℝ) - x / 2 ^ e) * 2 ^ e := by
      field_simp
    rw [e1, abs_mul, abs_of_pos h2]
    have e2 : (2 : ℝ) ^ e = 2 ^ (Int.log 2 |x|) / 2 ^ 52 := by
      rw [he, zpow_sub₀ (by norm_num)]; norm_cast
    have e3 : (2 : ℝ) ^ (Int.log 2 |x|) ≤ |x| := by exact_mod_cast hlog
    calc _ ≤ 1 / 2 * 2 ^ e := mul_le_mul_of_nonneg_right hn h2.le
      _ ≤ 1 / 2 * (|x| / 2 ^ 52) := by rw [e2]; gcongr
      _ = 1 / 2 ^ 53 * |x| := by ring

/-- Integers of at most 53 binary digits times powers of two are not changed. -/
theorem roundDouble_fixed (n k : ℤ) (hn : |n| ≤ 2 ^ 53) : roundDouble (n * 2 ^ k) = n * 2 ^ k := by
  by_cases h0 : n = 0
  · subst h0; simp [roundDouble]
  have hx : (n : ℝ) * 2 ^ k ≠ 0 := mul_ne_zero (by exact_mod_cast h0) (by positivity)
  rw [roundDouble, if_neg hx]
  have habs : |(n : ℝ) * 2 ^ k| = |(n : ℝ)| * 2 ^ k := by rw [abs_mul, abs_of_pos (a := (2 : ℝ) ^ k) (by positivity)]
  have hpos : 0 < |(n : ℝ) * 2 ^ k| := abs_pos.2 hx
  have hlog := Int.zpow_log_le_self (b := 2) (r := |(n : ℝ) * 2 ^ k|) (by norm_num) hpos
  set g := Int.log 2 |(n : ℝ) * 2 ^ k| with hg
  have hlog' : (2 : ℝ) ^ g ≤ |(n : ℝ)| * 2 ^ k := by rw [← habs]; exact_mod_cast hlog
  have hn' : |(n : ℝ)| ≤ 2 ^ 53 := by exact_mod_cast hn
  have key : ∃ m : ℤ, (n : ℝ) * 2 ^ k / 2 ^ (g - 52) = m := by
    by_cases hle : g - 52 ≤ k
    · obtain ⟨j, hj⟩ : ∃ j : ℕ, k - (g - 52) = j := ⟨(k - (g - 52)).toNat, by omega⟩
      refine ⟨n * 2 ^ j, ?_⟩
      rw [mul_div_assoc, ← zpow_sub₀ (by norm_num), hj]
      push_cast
      rw [zpow_natCast]
    · have h53 : g = k + 53 := by
        have h1 : (2 : ℝ) ^ g ≤ 2 ^ (k + 53) := by
          refine hlog'.trans ?_
          rw [zpow_add₀ (by norm_num), mul_comm]
          refine mul_le_mul_of_nonneg_left ?_ (by positivity)
          exact_mod_cast hn'
        have h2 := (zpow_le_zpow_iff_right₀ (by norm_num : (1 : ℝ) < 2)).1 h1
        omega
      have h4 : |(n : ℝ)| = 2 ^ 53 := by
        refine le_antisymm hn' ?_
        rw [h53, zpow_add₀ (by norm_num), mul_comm] at hlog'
        have h5 := le_of_mul_le_mul_right hlog' (by positivity)
        exact_mod_cast h5
      have hk : (2 : ℝ) ^ k / 2 ^ (g - 52) = 1 / 2 := by
        rw [h53, ← zpow_sub₀ (by norm_num), show k - (k + 53 - 52) = -1 by ring]; norm_num
      rcases abs_eq (by positivity) |>.1 h4 with h | h
      · exact ⟨2 ^ 52, by rw [mul_div_assoc, hk, h]; norm_num⟩
      · exact ⟨-2 ^ 52, by rw [mul_div_assoc, hk, h]; norm_num⟩
  obtain ⟨m, hm⟩ := key
  rw [hm, nearestEven_int, ← hm, div_mul_cancel₀ _ (by positivity)]

/-- Rounding to double precision is symmetric, has no effect on doubles, and 1 is a double. -/
theorem roundDouble_signed : SignedRounding roundDouble where
  odd x := by
    by_cases hx : x = 0
    · subst hx; simp [roundDouble]
    · rw [roundDouble, roundDouble, if_neg hx, if_neg (neg_ne_zero.2 hx), abs_neg, neg_div, nearestEven_neg]
      push_cast
      ring
  idem x := by
    by_cases hx : x = 0
    · subst hx; simp [roundDouble]
    · have hpos : 0 < |x| := abs_pos.2 hx
      have hlt := Int.lt_zpow_succ_log_self (b := 2) (by norm_num) |x|
      have e : roundDouble x = nearestEven (x / 2 ^ (Int.log 2 |x| - 52)) * 2 ^ (Int.log 2 |x| - 52) := by
        rw [roundDouble, if_neg hx]
      rw [e]
      apply roundDouble_fixed
      have h2 : (0 : ℝ) < 2 ^ (Int.log 2 |x| - 52) := by positivity
      have hy : |x / 2 ^ (Int.log 2 |x| - 52)| < 2 ^ 53 := by
        rw [abs_div, abs_of_pos h2, div_lt_iff₀ h2]
        have : (2 : ℝ) ^ 53 * 2 ^ (Int.log 2 |x| - 52) = 2 ^ (Int.log 2 |x| + 1) := by
          rw [← zpow_natCast, ← zpow_add₀ (by norm_num)]; congr 1; push_cast; ring
        rw [this]
        exact_mod_cast hlt
      have hn := nearestEven_near (x / 2 ^ (Int.log 2 |x| - 52))
      generalize x / 2 ^ (Int.log 2 |x| - 52) = y at hy hn
      have h3 : |(nearestEven y : ℝ)| < 2 ^ 53 + 1 := by
        have := abs_add_le ((nearestEven y : ℝ) - y) y
        rw [sub_add_cancel] at this
        linarith
      have h4 : |nearestEven y| < 2 ^ 53 + 1 := by exact_mod_cast h3
      omega
  one := by
    have := roundDouble_fixed 1 0 (by norm_num)
    simpa using this

/-- The double nearest to `x`. -/
theorem roundDouble_eq {x : ℝ} (n e : ℤ) (h1 : (2 : ℝ) ^ (e + 52) ≤ x) (h2 : x < 2 ^ (e + 53)) (h : |x / 2 ^ e - n| < 1 / 2) :
    roundDouble x = n * 2 ^ e := by
  have hx : 0 < x := lt_of_lt_of_le (by positivity) h1
  have hlog : Int.log 2 |x| = e + 52 := by
    rw [abs_of_pos hx]
    refine le_antisymm ?_ ?_
    · rw [← Int.lt_add_one_iff, show e + 52 + 1 = e + 53 by ring]
      exact (Int.lt_zpow_iff_log_lt (b := 2) (by norm_num) hx).1 (by exact_mod_cast h2)
    · exact (Int.zpow_le_iff_le_log (b := 2) (by norm_num) hx).1 (by exact_mod_cast h1)
  rw [roundDouble, if_neg hx.ne', hlog, show e + 52 - 52 = e by ring]
  congr 2
  have h3 := nearestEven_near (x / 2 ^ e)
  have h4 : |(nearestEven (x / 2 ^ e) : ℝ) - n| < 1 := by
    have := abs_add_le ((nearestEven (x / 2 ^ e) : ℝ) - x / 2 ^ e) (x / 2 ^ e - n)
    rw [sub_add_sub_cancel] at this
    linarith
  have h5 : |nearestEven (x / 2 ^ e) - n| < 1 := by exact_mod_cast h4
  rw [Int.abs_lt_one_iff] at h5
  linarith

/-- Correctly rounded values of a function bounded by 1, such as `cos` and `sin`, have absolute errors of at most `2⁻⁵³`. -/
theorem roundDouble_bounded (f : ℝ → ℝ) (hf : ∀ x, |f x| ≤ 1) (x : ℝ) : |roundDouble (f x) - f x| ≤ 1 / 2 ^ 53 :=
  (roundDouble_rounds (f x)).trans (by have := hf x; linarith)

end

end Blueqat
