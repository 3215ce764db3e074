import Verif.Spec.Phase
import Verif.FloatIeee

/-! Lemmas: `ignore_global` in rounded arithmetic. -/

set_option linter.unusedSimpArgs false
set_option linter.unusedVariables false

namespace Spec

open Blueqat

noncomputable section

variable {fl : ℝ → ℝ} {u : ℝ}

/-! ## Chains of roundings of numbers of any sign -/

/-- `x` is `y` up to `k` roundings. -/
def SRounds (u : ℝ) (k : ℕ) (x y : ℝ) : Prop := |x - y| ≤ ((1 + u) ^ k - 1) * |y|

theorem SRounds.refl (y : ℝ) : SRounds u 0 y y := by simp [SRounds]

theorem SRounds.mono (hu : 0 ≤ u) {k l : ℕ} {x y : ℝ} (h : SRounds u k x y) (hkl : k ≤ l) : SRounds u l x y := by
  refine h.trans (mul_le_mul_of_nonneg_right ?_ (abs_nonneg _))
  have : (1 + u) ^ k ≤ (1 + u) ^ l := pow_le_pow_right₀ (by linarith) hkl
  linarith

theorem SRounds.size {k : ℕ} {x y : ℝ} (h : SRounds u k x y) : |x| ≤ (1 + u) ^ k * |y| := by
  have h2 := abs_add_le (x - y) y
  rw [sub_add_cancel] at h2
  have h3 : |x - y| ≤ ((1 + u) ^ k - 1) * |y| := h
  linarith

theorem SRounds.round (hu : 0 ≤ u) (hfl : RoundsTo fl u) {k : ℕ} {x y : ℝ} (h : SRounds u k x y) :
    SRounds u (k + 1) (fl x) y := by
  rw [SRounds, show fl x - y = (fl x - x) + (x - y) by ring]
  refine (abs_add_le _ _).trans ?_
  have h1 := hfl x
  have h2 := mul_le_mul_of_nonneg_left h.size hu
  have h3 : |x - y| ≤ ((1 + u) ^ k - 1) * |y| := h
  rw [pow_succ]
  nlinarith

theorem SRounds.mul (hu : 0 ≤ u) {k l : ℕ} {x y x' y' : ℝ} (h : SRounds u k x y) (h' : SRounds u l x' y') :
    SRounds u (k + l) (x * x') (y * y') := by
  have h1 : |x - y| ≤ ((1 + u) ^ k - 1) * |y| := h
  have h2 : |x' - y'| ≤ ((1 + u) ^ l - 1) * |y'| := h'
  have h3 := h.size
  have a := one_le_pow_u hu k
  have b := one_le_pow_u hu l
  rw [SRounds, show x * x' - y * y' = x * (x' - y') + (x - y) * y' by ring, abs_mul]
  refine (abs_add_le _ _).trans ?_
  rw [abs_mul, abs_mul, pow_add]
  have e1 : |x| * |x' - y'| ≤ ((1 + u) ^ k * |y|) * (((1 + u) ^ l - 1) * |y'|) :=
    mul_le_mul h3 h2 (abs_nonneg _) (by positivity)
  have e2 : |x - y| * |y'| ≤ (((1 + u) ^ k - 1) * |y|) * |y'| := mul_le_mul_of_nonneg_right h1 (abs_nonneg _)
  calc _ ≤ _ := add_le_add e1 e2
    _ = _ := by ring

theorem SRounds.inv (hu : 0 ≤ u) {k : ℕ} {x y : ℝ} (h : SRounds u k x y) (hk : (1 + u) ^ k ≤ 3 / 2) (hy : y ≠ 0) :
    SRounds u (2 * k) (1 / x) (1 / y) := by
  have h1 : |x - y| ≤ ((1 + u) ^ k - 1) * |y| := h
  have a := one_le_pow_u hu k
  have hy' : 0 < |y| := abs_pos.2 hy
  have hx : (2 - (1 + u) ^ k) * |y| ≤ |x| := by
    have := abs_sub_abs_le_abs_sub y x
    rw [abs_sub_comm] at this
    linarith
  have hx' : 0 < |x| := lt_of_lt_of_le (mul_pos (by linarith) hy') hx
  have hx0 : x ≠ 0 := abs_pos.1 hx'
  rw [SRounds, div_sub_div _ _ hx0 hy, one_mul, mul_one, abs_div, abs_mul, abs_div, abs_one, div_le_iff₀ (by positivity),
    abs_sub_comm, two_mul, pow_add]
  have e : ((1 + u) ^ k * (1 + u) ^ k - 1) * (1 / |y|) * (|x| * |y|) = ((1 + u) ^ k * (1 + u) ^ k - 1) * |x| := by
    field_simp
  rw [e]
  refine h1.trans ?_
  set c := (1 + u) ^ k
  have h2 : (c * c - 1) * ((2 - c) * |y|) ≤ (c * c - 1) * |x| := mul_le_mul_of_nonneg_left hx (by nlinarith)
  refine le_trans ?_ h2
  have h3 : c - 1 ≤ (c * c - 1) * (2 - c) := by nlinarith [mul_nonneg (sub_nonneg.2 a) (sub_nonneg.2 hk)]
  nlinarith [mul_le_mul_of_nonneg_right h3 hy'.le]

/-- `a + b` for numbers of the same sign. -/
theorem SRounds.add_same {k : ℕ} {x y x' y' : ℝ} (h : SRounds u k x y) (h' : SRounds u k x' y') (hs : 0 ≤ y * y') :
    SRounds u k (x + x') (y + y') := by
  have h1 : |x - y| ≤ ((1 + u) ^ k - 1) * |y| := h
  have h2 : |x' - y'| ≤ ((1 + u) ^ k - 1) * |y'| := h'
  have e : |y + y'| = |y| + |y'| := by
    rcases mul_nonneg_iff.1 hs with h | h
    · rw [abs_of_nonneg h.1, abs_of_nonneg h.2, abs_of_nonneg (add_nonneg h.1 h.2)]
    · rw [abs_of_nonpos h.1, abs_of_nonpos h.2, abs_of_nonpos (add_nonpos h.1 h.2)]; ring
  rw [SRounds, e, show x + x' - (y + y') = (x - y) + (x' - y') by ring]
  refine (abs_add_le _ _).trans ?_
  linarith

theorem SRounds.neg {k : ℕ} {x y : ℝ} (h : SRounds u k x y) : SRounds u k (-x) (-y) := by
  rw [SRounds, abs_neg, show -x - -y = -(x - y) by ring, abs_neg]; exact h

theorem fl_zero (hfl : RoundsTo fl u) : fl 0 = 0 := by
  have := hfl 0
  simpa using this

/-! ## Smith's method -/

/-- The denominator of Smith's method. -/
theorem smith_scl (hu : 0 ≤ u) (hu8 : u ≤ 1 / 8) (hfl : RoundsTo fl u) (a b : ℝ) (ha : a ≠ 0) :
    SRounds u 7 (fl (1 / fl (a + fl (b * fl (b / a))))) (1 / (a + b * (b / a))) := by
  have hrat : SRounds u 1 (fl (b / a)) (b / a) := (SRounds.refl _).round hu hfl
  have hb : SRounds u 2 (fl (b * fl (b / a))) (b * (b / a)) := by
    have := ((SRounds.refl b).mul hu hrat).round hu hfl
    simpa using this
  have hsign : 0 ≤ a * (b * (b / a)) := by
    rw [show a * (b * (b / a)) = b * b * (a / a) by ring, div_self ha, mul_one]; exact mul_self_nonneg b
  have hs : SRounds u 3 (fl (a + fl (b * fl (b / a)))) (a + b * (b / a)) :=
    ((((SRounds.refl a).mono hu (by omega : 0 ≤ 2)).add_same hb hsign)).round hu hfl
  have hne : a + b * (b / a) ≠ 0 := by
    rw [show a + b * (b / a) = (a * a + b * b) / a by field_simp]
    exact div_ne_zero (by have := mul_self_pos.2 ha; nlinarith [mul_self_nonneg b]) ha
  have hk : (1 + u) ^ 3 ≤ 3 / 2 := by
    calc (1 + u) ^ 3 ≤ (1 + 1 / 8) ^ 3 := pow_le_pow_left₀ (by linarith) (by linarith) _
      _ ≤ 3 / 2 := by norm_num
  exact (hs.inv hu hk hne).round hu hfl

theorem smith_near (hu : 0 ≤ u) (hu8 : u ≤ 1 / 8) (hfl : RoundsTo fl u) (x : ℝ) (z : ℂ) (hz : z ≠ 0) :
    ‖flSmith fl x z - x / z‖ ≤ ((1 + u) ^ 11 - 1) * ‖(x : ℂ) / z‖ := by
  have hc : 0 ≤ (1 + u) ^ 11 - 1 := by have := one_le_pow_u hu 11; linarith
  have hre : ((x : ℂ) / z).re = x * z.re / (z.re * z.re + z.im * z.im) := by
    rw [Complex.div_re, Complex.normSq_apply]; simp
  have him : ((x : ℂ) / z).im = -(x * z.im) / (z.re * z.re + z.im * z.im) := by
    rw [Complex.div_im, Complex.normSq_apply]; simp; ring
  have hx0 : SRounds u 0 x x := SRounds.refl x
  have h0 := fl_zero hfl
  by_cases hab : |z.im| ≤ |z.re|
  · have ha : z.re ≠ 0 := by
      intro h0
      rw [h0, abs_zero] at hab
      exact hz (Complex.ext h0 (abs_nonpos_iff.1 hab))
    have hd : z.re * z.re + z.im * z.im ≠ 0 := by
      have := mul_self_pos.2 ha; nlinarith [mul_self_nonneg z.im]
    have hscl := smith_scl hu hu8 hfl z.re z.im ha
    have hrat : SRounds u 1 (fl (z.im / z.re)) (z.im / z.re) := (SRounds.refl _).round hu hfl
    refine norm_comp_le ?_ ?_ hc
    · have := (((hx0.round hu hfl).mul hu hscl).round hu hfl).mono hu (by omega : _ ≤ 11)
      rw [show x * (1 / (z.re + z.im * (z.im / z.re))) = x * z.re / (z.re * z.re + z.im * z.im) by
        rw [show z.re + z.im * (z.im / z.re) = (z.re * z.re + z.im * z.im) / z.re by field_simp]; field_simp] at this
      rw [hre]
      simpa [flSmith, hab, h0, SRounds] using this
    · have := ((((((hx0.mul hu hrat).round hu hfl).neg).round hu hfl).mul hu hscl).round hu hfl).mono hu (by omega : _ ≤ 11)
      rw [show -(x * (z.im / z.re)) * (1 / (z.re + z.im * (z.im / z.re))) = -(x * z.im) / (z.re * z.re + z.im * z.im) by
        rw [show z.re + z.im * (z.im / z.re) = (z.re * z.re + z.im * z.im) / z.re by field_simp]; field_simp] at this
      rw [him]
      simpa [flSmith, hab, h0, SRounds] using this
  · have ha : z.im ≠ 0 := by
      intro h0
      rw [h0, abs_zero] at hab
      exact hab (abs_nonneg _)
    have hd : z.im * z.im + z.re * z.re ≠ 0 := by
      have := mul_self_pos.2 ha; nlinarith [mul_self_nonneg z.re]
    have hscl := smith_scl hu hu8 hfl z.im z.re ha
    have hrat : SRounds u 1 (fl (z.re / z.im)) (z.re / z.im) := (SRounds.refl _).round hu hfl
    rw [add_comm] at hre him
    refine norm_comp_le ?_ ?_ hc
    · have := (((((hx0.mul hu hrat).round hu hfl).round hu hfl).mul hu hscl).round hu hfl).mono hu (by omega : _ ≤ 11)
      rw [show x * (z.re / z.im) * (1 / (z.im + z.re * (z.re / z.im))) = x * z.re / (z.im * z.im + z.re * z.re) by
        rw [show z.im + z.re * (z.re / z.im) = (z.im * z.im + z.re * z.re) / z.im by field_simp]; field_simp] at this
      rw [hre]
      simpa [flSmith, hab, h0, SRounds] using this
    · have := (((hx0.neg.round hu hfl).mul hu hscl).round hu hfl).mono hu (by omega : _ ≤ 11)
      rw [show -x * (1 / (z.im + z.re * (z.re / z.im))) = -(x * z.im) / (z.im * z.im + z.re * z.re) by
        rw [show z.im + z.re * (z.re / z.im) = (z.im * z.im + z.re * z.re) / z.im by field_simp]; field_simp] at this
      rw [him]
      simpa [flSmith, hab, h0, SRounds] using this

/-! ## Removing the phase -/

variable {P : PhaseOps} {δ : ℝ}

theorem phase_nonneg (hP : PhaseAccurate P δ) : 0 ≤ δ := by
  have := (abs_nonneg _).trans hP.thr
  by_contra h
  push Not at h
  nlinarith

/-- An amplitude that was found is not 0, and `ang` is almost of size 1. -/
theorem ang_near (hP : PhaseAccurate P δ) (hδ : δ < 1) {q : ℂ} (hq : P.thr < P.abs q) :
    q ≠ 0 ∧ ‖P.quot (P.abs q) q - (‖q‖ : ℂ) / q‖ ≤ (1 + δ) ^ 2 - 1 := by
  have h0 := phase_nonneg hP
  have ht := (abs_le.1 hP.thr).1
  have ha := hP.abs q
  have hq0 : q ≠ 0 := by
    rintro rfl
    rw [norm_zero, mul_zero] at ha
    have : P.abs 0 = 0 := by simpa using ha
    rw [this] at hq
    nlinarith
  have hn : 0 < ‖q‖ := norm_pos_iff.2 hq0
  refine ⟨hq0, ?_⟩
  have h1 := hP.quot (P.abs q) q hq0
  have h2 : ‖(P.abs q : ℂ) / q - (‖q‖ : ℂ) / q‖ ≤ δ := by
    rw [← sub_div, norm_div, div_le_iff₀ hn, ← Complex.ofReal_sub, Complex.norm_real]
    exact ha
  have hone : ‖(‖q‖ : ℂ) / q‖ = 1 := by rw [norm_div, Complex.norm_real, norm_norm, div_self hn.ne']
  have h3 : ‖(P.abs q : ℂ) / q‖ ≤ 1 + δ := by
    have := norm_add_le ((P.abs q : ℂ) / q - (‖q‖ : ℂ) / q) ((‖q‖ : ℂ) / q)
    rw [sub_add_cancel, hone] at this
    linarith
  have h4 := norm_sub_le_norm_sub_add_norm_sub (P.quot (P.abs q) q) ((P.abs q : ℂ) / q) ((‖q‖ : ℂ) / q)
  have h5 := mul_le_mul_of_nonneg_left h3 h0
  linarith

theorem turn_near (hP : PhaseAccurate P δ) {w a : ℂ} (hw : ‖w‖ = 1) (ha : ‖a - w‖ ≤ (1 + δ) ^ 2 - 1) (z : ℂ) :
    ‖P.mul z a - w * z‖ ≤ ((1 + δ) ^ 3 - 1) * ‖z‖ := by
  have h0 := phase_nonneg hP
  have h1 := hP.mul z a
  have h2 : ‖a‖ ≤ (1 + δ) ^ 2 := by
    have := norm_add_le (a - w) w
    rw [sub_add_cancel, hw] at this
    linarith
  have h3 : ‖z * a - w * z‖ ≤ ((1 + δ) ^ 2 - 1) * ‖z‖ := by
    rw [show z * a - w * z = (a - w) * z by ring, norm_mul]
    exact mul_le_mul_of_nonneg_right ha (norm_nonneg z)
  have h4 : ‖z * a‖ ≤ (1 + δ) ^ 2 * ‖z‖ := by
    rw [norm_mul, mul_comm]
    exact mul_le_mul_of_nonneg_right h2 (norm_nonneg z)
  have h5 := norm_sub_le_norm_sub_add_norm_sub (P.mul z a) (z * a) (w * z)
  have h6 := mul_le_mul_of_nonneg_left h4 h0
  have e : ((1 + δ) ^ 3 - 1) * ‖z‖ = δ * ((1 + δ) ^ 2 * ‖z‖) + ((1 + δ) ^ 2 - 1) * ‖z‖ := by ring
  linarith

/-- What `ignore_global` does to a vector of amplitudes. -/
theorem flIgnore_cases (P : PhaseOps) (n : ℕ) (φ : Vec) :
    ((∀ i < 2 ^ n, P.abs (φ i) ≤ P.thr) ∧ flIgnoreGlobal P (amplitudes n φ) = amplitudes n φ) ∨
    ∃ j < 2 ^ n, P.thr < P.abs (φ j) ∧ (∀ i < j, P.abs (φ i) ≤ P.thr) ∧
      flIgnoreGlobal P (amplitudes n φ) = amplitudes n (fun i => P.mul (φ i) (P.quot (P.abs (φ j)) (φ j))) := by
  have hm : (amplitudes n φ).find? (fun q => decide (P.abs q > P.thr)) =
      ((List.range (2 ^ n)).find? (fun i => decide (P.abs (φ i) > P.thr))).map φ := by
    rw [amplitudes, List.find?_map]; rfl
  cases hf : (List.range (2 ^ n)).find? (fun i => decide (P.abs (φ i) > P.thr)) with
  | none =>
    left
    rw [hf] at hm
    rw [List.find?_eq_none] at hf
    refine ⟨fun i hi => ?_, by simp only [flIgnoreGlobal, hm, Option.map_none]⟩
    have := hf i (List.mem_range.2 hi)
    simpa using this
  | some j =>
    right
    rw [hf] at hm
    rw [List.find?_range_eq_some] at hf
    obtain ⟨h1, h2, h3⟩ := hf
    refine ⟨j, List.mem_range.1 h2, by simpa using h1, fun i hi => by simpa using h3 i hi, ?_⟩
    simp only [flIgnoreGlobal, hm, Option.map_some]
    simp only [amplitudes, List.map_map]
    rfl

/-- The turned vector is close to a multiple of the given one. -/
theorem flIgnore_near (hP : PhaseAccurate P δ) (hδ : δ < 1) (n : ℕ) (φ : Vec) :
    ∃ (w : ℂ) (φ' : Vec), ‖w‖ = 1 ∧ flIgnoreGlobal P (amplitudes n φ) = amplitudes n φ' ∧
      gap n φ' (fun i => w * φ i) ≤ ((1 + δ) ^ 3 - 1) * √(normSqN n φ) := by
  have h0 := phase_nonneg hP
  have hc : 0 ≤ (1 + δ) ^ 3 - 1 := by have := one_le_pow_u h0 3; linarith
  rcases flIgnore_cases P n φ with ⟨-, h⟩ | ⟨j, -, hj, -, h⟩
  · refine ⟨1, φ, by simp, h, ?_⟩
    simp only [one_mul, gap_self]
    positivity
  · obtain ⟨hq, ha⟩ := ang_near hP hδ hj
    have hw : ‖(‖φ j‖ : ℂ) / φ j‖ = 1 := by
      rw [norm_div, Complex.norm_real, norm_norm, div_self (norm_pos_iff.2 hq).ne']
    exact ⟨_, _, hw, h, gap_pointwise hc fun i => turn_near hP hw ha (φ i)⟩

theorem amp_gap {n i : ℕ} (hi : i < 2 ^ n) (φ ψ : Vec) : ‖φ i - ψ i‖ ≤ gap n φ ψ := by
  rw [gap, ← Real.sqrt_sq (norm_nonneg (φ i - ψ i))]
  refine Real.sqrt_le_sqrt ?_
  exact Finset.single_le_sum (f := fun i => ‖φ i - ψ i‖ ^ 2) (fun i _ => by positivity) (Finset.mem_range.2 hi)

/-- Directions of two numbers that are close. -/
theorem direction_near {a b : ℂ} (ha : a ≠ 0) (hb : b ≠ 0) : ‖(‖a‖ : ℂ) / a - (‖b‖ : ℂ) / b‖ ≤ 2 * ‖a - b‖ / ‖b‖ := by
  have na : 0 < ‖a‖ := norm_pos_iff.2 ha
  have nb : 0 < ‖b‖ := norm_pos_iff.2 hb
  rw [div_sub_div _ _ ha hb, norm_div, norm_mul, div_le_div_iff₀ (by positivity) nb]
  have e : (‖a‖ : ℂ) * b - a * ‖b‖ = ((‖a‖ : ℝ) : ℂ) * (b - a) + a * ((‖a‖ - ‖b‖ : ℝ) : ℂ) := by
    push_cast; ring
  have h1 : ‖(‖a‖ : ℂ) * b - a * ‖b‖‖ ≤ 2 * ‖a - b‖ * ‖a‖ := by
    rw [e]
    refine (norm_add_le _ _).trans ?_
    rw [norm_mul, norm_mul, Complex.norm_real, Complex.norm_real, norm_norm, norm_sub_rev b a]
    have := mul_le_mul_of_nonneg_left (abs_norm_sub_norm_le a b) na.le
    rw [Real.norm_eq_abs]
    linarith
  calc _ ≤ 2 * ‖a - b‖ * ‖a‖ * ‖b‖ := mul_le_mul_of_nonneg_right h1 nb.le
    _ = _ := by ring

/-- If it is clear which amplitude decides, the turned vector is close to the turned exact state. -/
theorem flIgnore_turned (hP : PhaseAccurate P δ) (hδ : δ < 1) {n j : ℕ} {φ ψ : Vec} {B : ℝ} (hψ : normSqN n ψ = 1)
    (hg : gap n φ ψ ≤ B) (hs : FirstSeen δ B n ψ j) :
    ∃ φ', flIgnoreGlobal P (amplitudes n φ) = amplitudes n φ' ∧ gap n φ' (turned ψ j) ≤ turnedErr δ B ψ j := by
  have h0 := phase_nonneg hP
  have hB : 0 ≤ B := (gap_nonneg n φ ψ).trans hg
  have hc : 0 ≤ (1 + δ) ^ 3 - 1 := by have := one_le_pow_u h0 3; linarith
  obtain ⟨hj, hlo, hhi⟩ := hs
  have ht := abs_le.1 hP.thr
  have hfj : P.thr < P.abs (φ j) := by
    have a1 := (abs_le.1 (hP.abs (φ j))).1
    have a2 := (amp_gap hj φ ψ).trans hg
    have a3 := norm_sub_norm_le (ψ j) (φ j)
    rw [norm_sub_rev] at a3
    have a4 : (1 - δ) * (‖ψ j‖ - B) ≤ (1 - δ) * ‖φ j‖ := mul_le_mul_of_nonneg_left (by linarith) (by linarith)
    linarith
  have hfi : ∀ i < j, P.abs (φ i) ≤ P.thr := by
    intro i hi
    have a1 := (abs_le.1 (hP.abs (φ i))).2
    have a2 := (amp_gap (hi.trans hj) φ ψ).trans hg
    have a3 := norm_sub_norm_le (φ i) (ψ i)
    have a4 : (1 + δ) * ‖φ i‖ ≤ (1 + δ) * (‖ψ i‖ + B) := mul_le_mul_of_nonneg_left (by linarith) (by linarith)
    have := hlo i hi
    linarith
  rcases flIgnore_cases P n φ with ⟨h, -⟩ | ⟨k, hk, hk1, hk2, h⟩
  · exact absurd hfj (not_lt.2 (h j hj))
  · have hkj : k = j := by
      rcases lt_trichotomy k j with hl | rfl | hl
      · exact absurd hk1 (not_lt.2 (hfi k hl))
      · rfl
      · exact absurd hfj (not_lt.2 (hk2 j hl))
    subst hkj
    refine ⟨_, h, ?_⟩
    obtain ⟨hq, ha⟩ := ang_near hP hδ hk1
    have hw : ‖(‖φ k‖ : ℂ) / φ k‖ = 1 := by
      rw [norm_div, Complex.norm_real, norm_norm, div_self (norm_pos_iff.2 hq).ne']
    have hψk : ψ k ≠ 0 := by
      intro hz
      rw [hz, norm_zero] at hhi
      have : (1 - δ) * (0 - B) ≤ 0 := mul_nonpos_of_nonneg_of_nonpos (by linarith) (by linarith)
      have : 0 < (1 + δ) * (1 / 10 ^ 7) := by positivity
      linarith
    have g1 : gap n (fun i => P.mul (φ i) (P.quot (P.abs (φ k)) (φ k))) (fun i => (‖φ k‖ : ℂ) / φ k * φ i) ≤
        ((1 + δ) ^ 3 - 1) * (1 + B) := by
      refine (gap_pointwise (ψ := φ) hc fun i => turn_near hP hw ha (φ i)).trans (mul_le_mul_of_nonneg_left ?_ hc)
      have := (abs_le.1 ((norm_gap n φ ψ).trans hg)).2
      rw [hψ, Real.sqrt_one] at this
      linarith
    have g2 : gap n (fun i => (‖φ k‖ : ℂ) / φ k * φ i) (fun i => (‖φ k‖ : ℂ) / φ k * ψ i) ≤ B := by
      have := gap_mulc n ((‖φ k‖ : ℂ) / φ k) φ ψ
      simp only [mul_comm (_ : ℂ) ((‖φ k‖ : ℂ) / φ k), hw, one_mul] at this
      rw [this]; exact hg
    have g3 : gap n (fun i => (‖φ k‖ : ℂ) / φ k * ψ i) (turned ψ k) ≤ 2 * B / ‖ψ k‖ := by
      have := gap_scale n ((‖φ k‖ : ℂ) / φ k) ((‖ψ k‖ : ℂ) / ψ k) ψ
      rw [hψ, Real.sqrt_one, mul_one] at this
      simp only [mul_comm (ψ _)] at this
      have e : gap n (fun i => (‖φ k‖ : ℂ) / φ k * ψ i) (turned ψ k) = _ := this
      rw [e]
      refine (direction_near hq hψk).trans ?_
      refine div_le_div_of_nonneg_right ?_ (norm_nonneg _)
      have := (amp_gap hk φ ψ).trans hg
      linarith
    refine (gap_triangle n _ (fun i => (‖φ k‖ : ℂ) / φ k * φ i) _).trans ?_
    have := gap_triangle n (fun i => (‖φ k‖ : ℂ) / φ k * φ i) (fun i => (‖φ k‖ : ℂ) / φ k * ψ i) (turned ψ k)
    rw [turnedErr]
    linarith

/-- A global phase does not change the turned state. -/
theorem turned_phase {ψ : Vec} {z : ℂ} (hz : ‖z‖ = 1) (j : ℕ) : turned (fun i => z * ψ i) j = turned ψ j := by
  have hz0 : z ≠ 0 := by rintro rfl; simp at hz
  funext i
  simp only [turned, norm_mul, hz, one_mul]
  by_cases h : ψ j = 0
  · simp [h]
  · field_simp

end

end Spec
