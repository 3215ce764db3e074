import Verif.FloatShots

/-! Lemmas: arithmetic that rounds after every operation is accurate. -/

set_option linter.unusedSimpArgs false
set_option linter.unusedVariables false

namespace Spec

open Blueqat

noncomputable section

variable {fl : ℝ → ℝ} {u : ℝ}

/-! ## Componentwise errors of complex numbers -/

theorem norm_comp_le {z w : ℂ} {c : ℝ} (h1 : |z.re - w.re| ≤ c * |w.re|) (h2 : |z.im - w.im| ≤ c * |w.im|)
    (hc : 0 ≤ c) : ‖z - w‖ ≤ c * ‖w‖ := by
  rw [← abs_of_nonneg (norm_nonneg (z - w)), ← abs_of_nonneg (mul_nonneg hc (norm_nonneg w))]
  refine sq_le_sq.1 ?_
  rw [mul_pow, Complex.sq_norm, Complex.sq_norm, Complex.normSq_apply, Complex.normSq_apply, Complex.sub_re, Complex.sub_im]
  have a1 := sq_le_sq.2 (h1.trans (le_abs_self _))
  have a2 := sq_le_sq.2 (h2.trans (le_abs_self _))
  rw [mul_pow, sq_abs] at a1 a2
  nlinarith

theorem norm_bound_le {z : ℂ} {m : ℝ} (h1 : |z.re| ≤ m) (h2 : |z.im| ≤ m) (hm : 0 ≤ m) : ‖z‖ ≤ 3 / 2 * m := by
  rw [← abs_of_nonneg (norm_nonneg z), ← abs_of_nonneg (mul_nonneg (by norm_num : (0 : ℝ) ≤ 3 / 2) hm)]
  refine sq_le_sq.1 ?_
  rw [mul_pow, Complex.sq_norm, Complex.normSq_apply]
  have a1 := sq_le_sq.2 (h1.trans (le_abs_self _))
  have a2 := sq_le_sq.2 (h2.trans (le_abs_self _))
  nlinarith [sq_nonneg m]

theorem two_mul_le (a b c d x y : ℝ) (hx : 0 ≤ x) (hy : 0 ≤ y) (h1 : a ^ 2 + b ^ 2 = x ^ 2) (h2 : c ^ 2 + d ^ 2 = y ^ 2) :
    |a * c| + |b * d| ≤ x * y := by
  rw [← abs_of_nonneg (add_nonneg (abs_nonneg (a * c)) (abs_nonneg (b * d))), ← abs_of_nonneg (mul_nonneg hx hy)]
  refine sq_le_sq.1 ?_
  rw [mul_pow, ← h1, ← h2, abs_mul, abs_mul]
  nlinarith [sq_nonneg (|a| * |d| - |b| * |c|), sq_abs a, sq_abs b, sq_abs c, sq_abs d]

theorem norm_sq_parts (z : ℂ) : z.re ^ 2 + z.im ^ 2 = ‖z‖ ^ 2 := by rw [Complex.sq_norm, Complex.normSq_apply]; ring

/-- Rounding two numbers and the result of adding them. -/
theorem fl_pair (hfl : RoundsTo fl u) (hu : 0 ≤ u) (x y : ℝ) : |fl (fl x + fl y) - (x + y)| ≤ (2 * u + u ^ 2) * (|x| + |y|) := by
  have h1 := hfl x
  have h2 := hfl y
  have h3 := hfl (fl x + fl y)
  have h4 : |fl x + fl y - (x + y)| ≤ u * (|x| + |y|) := by
    rw [show fl x + fl y - (x + y) = (fl x - x) + (fl y - y) by ring]
    exact (abs_add_le _ _).trans (by linarith)
  have h5 : |fl x + fl y| ≤ (1 + u) * (|x| + |y|) := by
    rw [show fl x + fl y = (fl x + fl y - (x + y)) + (x + y) by ring]
    refine (abs_add_le _ _).trans ?_
    have := abs_add_le x y
    linarith
  rw [show fl (fl x + fl y) - (x + y) = (fl (fl x + fl y) - (fl x + fl y)) + (fl x + fl y - (x + y)) by ring]
  refine (abs_add_le _ _).trans ?_
  have := mul_le_mul_of_nonneg_left h5 hu
  linarith

/-- Rounding one number and its product with another. -/
theorem fl_scaled (hfl : RoundsTo fl u) (hu : 0 ≤ u) (a y : ℝ) : |fl (a * fl y) - a * y| ≤ (2 * u + u ^ 2) * |a * y| := by
  have h1 := hfl y
  have h3 := hfl (a * fl y)
  have h4 : |a * fl y - a * y| ≤ u * |a * y| := by
    rw [← mul_sub, abs_mul, abs_mul]
    calc |a| * |fl y - y| ≤ |a| * (u * |y|) := mul_le_mul_of_nonneg_left h1 (abs_nonneg a)
      _ = _ := by ring
  have h5 : |a * fl y| ≤ (1 + u) * |a * y| := by
    rw [show a * fl y = (a * fl y - a * y) + a * y by ring]
    exact (abs_add_le _ _).trans (by linarith)
  rw [show fl (a * fl y) - a * y = (fl (a * fl y) - a * fl y) + (a * fl y - a * y) by ring]
  refine (abs_add_le _ _).trans ?_
  have := mul_le_mul_of_nonneg_left h5 hu
  linarith

theorem rounded_mul_near (hfl : RoundsTo fl u) (hu : 0 ≤ u) (hu4 : u ≤ 1 / 4) (cos sin : ℝ → ℝ) (a b : ℂ) :
    ‖(FloatOps.rounded fl cos sin).mul a b - a * b‖ ≤ 4 * u * ‖a * b‖ := by
  have hab : 0 ≤ ‖a‖ * ‖b‖ := mul_nonneg (norm_nonneg a) (norm_nonneg b)
  have p1 := two_mul_le a.re a.im b.re b.im ‖a‖ ‖b‖ (norm_nonneg _) (norm_nonneg _) (norm_sq_parts a) (norm_sq_parts b)
  have p2 := two_mul_le a.re a.im b.im b.re ‖a‖ ‖b‖ (norm_nonneg _) (norm_nonneg _) (norm_sq_parts a)
    (by rw [add_comm]; exact norm_sq_parts b)
  have hneg : fl (fl (a.re * b.re) - fl (a.im * b.im)) - (a.re * b.re - a.im * b.im) =
      fl (fl (a.re * b.re) - fl (a.im * b.im)) - (a.re * b.re - a.im * b.im) := rfl
  have c0 : 0 ≤ 2 * u + u ^ 2 := by positivity
  have q2 : |fl (fl (a.re * b.im) + fl (a.im * b.re)) - (a.re * b.im + a.im * b.re)| ≤ (2 * u + u ^ 2) * (‖a‖ * ‖b‖) :=
    (fl_pair hfl hu _ _).trans (mul_le_mul_of_nonneg_left p2 c0)
  have q1 : |fl (fl (a.re * b.re) - fl (a.im * b.im)) - (a.re * b.re - a.im * b.im)| ≤ (2 * u + u ^ 2) * (‖a‖ * ‖b‖) := by
    refine le_trans ?_ (mul_le_mul_of_nonneg_left p1 c0)
    generalize a.re * b.re = x
    generalize a.im * b.im = y
    have h1 := hfl x
    have h2 := hfl y
    have h3 := hfl (fl x - fl y)
    have h4 : |fl x - fl y - (x - y)| ≤ u * (|x| + |y|) := by
      rw [show fl x - fl y - (x - y) = (fl x - x) - (fl y - y) by ring]
      exact (abs_sub _ _).trans (by linarith)
    have h5 : |fl x - fl y| ≤ (1 + u) * (|x| + |y|) := by
      rw [show fl x - fl y = (fl x - fl y - (x - y)) + (x - y) by ring]
      refine (abs_add_le _ _).trans ?_
      have := abs_sub x y
      linarith
    rw [show fl (fl x - fl y) - (x - y) = (fl (fl x - fl y) - (fl x - fl y)) + (fl x - fl y - (x - y)) by ring]
    refine (abs_add_le _ _).trans ?_
    have := mul_le_mul_of_nonneg_left h5 hu
    linarith
  have key := norm_bound_le (z := (FloatOps.rounded fl cos sin).mul a b - a * b) (m := (2 * u + u ^ 2) * (‖a‖ * ‖b‖))
    (by rw [Complex.sub_re, Complex.mul_re]; exact q1) (by rw [Complex.sub_im, Complex.mul_im]; exact q2)
    (mul_nonneg c0 hab)
  refine key.trans ?_
  rw [norm_mul, ← mul_assoc]
  refine mul_le_mul_of_nonneg_right ?_ hab
  nlinarith

/-! ## Chains of roundings of nonnegative numbers -/

/-- `x` is `y` up to `k` roundings. -/
def Rounds (u : ℝ) (k : ℕ) (x y : ℝ) : Prop := 0 ≤ y ∧ |x - y| ≤ ((1 + u) ^ k - 1) * y

theorem one_le_pow_u (hu : 0 ≤ u) (k : ℕ) : 1 ≤ (1 + u) ^ k := one_le_pow₀ (by linarith)

theorem Rounds.refl {y : ℝ} (hy : 0 ≤ y) : Rounds u 0 y y := ⟨hy, by simp⟩

theorem Rounds.mono (hu : 0 ≤ u) {k l : ℕ} {x y : ℝ} (h : Rounds u k x y) (hkl : k ≤ l) : Rounds u l x y := by
  refine ⟨h.1, h.2.trans (mul_le_mul_of_nonneg_right ?_ h.1)⟩
  have : (1 + u) ^ k ≤ (1 + u) ^ l := pow_le_pow_right₀ (by linarith) hkl
  linarith

theorem Rounds.size (hu : 0 ≤ u) {k : ℕ} {x y : ℝ} (h : Rounds u k x y) : |x| ≤ (1 + u) ^ k * y := by
  rw [show x = (x - y) + y by ring]
  refine (abs_add_le _ _).trans ?_
  rw [abs_of_nonneg h.1]
  linarith [h.2]

theorem Rounds.round (hu : 0 ≤ u) (hfl : RoundsTo fl u) {k : ℕ} {x y : ℝ} (h : Rounds u k x y) :
    Rounds u (k + 1) (fl x) y := by
  refine ⟨h.1, ?_⟩
  rw [show fl x - y = (fl x - x) + (x - y) by ring]
  refine (abs_add_le _ _).trans ?_
  have h1 := hfl x
  have h2 := mul_le_mul_of_nonneg_left (h.size hu) hu
  have h3 := h.2
  rw [pow_succ]
  nlinarith

theorem Rounds.add {k : ℕ} {x y x' y' : ℝ} (h : Rounds u k x y) (h' : Rounds u k x' y') : Rounds u k (x + x') (y + y') := by
  refine ⟨add_nonneg h.1 h'.1, ?_⟩
  rw [show x + x' - (y + y') = (x - y) + (x' - y') by ring]
  refine (abs_add_le _ _).trans ?_
  linarith [h.2, h'.2]

theorem Rounds.mul_self (hu : 0 ≤ u) {k : ℕ} {x y : ℝ} (h : Rounds u k x y) : Rounds u (2 * k) (x * x) (y * y) := by
  refine ⟨mul_self_nonneg y, ?_⟩
  have h1 := h.2
  have h2 : |x + y| ≤ ((1 + u) ^ k + 1) * y := by
    refine (abs_add_le _ _).trans ?_
    rw [abs_of_nonneg h.1]
    linarith [h.size hu]
  rw [show x * x - y * y = (x - y) * (x + y) by ring, abs_mul, two_mul, pow_add]
  have h3 := one_le_pow_u hu k
  calc |x - y| * |x + y| ≤ (((1 + u) ^ k - 1) * y) * (((1 + u) ^ k + 1) * y) :=
        mul_le_mul h1 h2 (abs_nonneg _) (mul_nonneg (by linarith) h.1)
    _ = _ := by ring

theorem Rounds.sqrt (hu : 0 ≤ u) {k : ℕ} {x y : ℝ} (h : Rounds u k x y) : Rounds u k √x √y := by
  refine ⟨Real.sqrt_nonneg y, ?_⟩
  obtain ⟨hy, h⟩ := h
  set d := (1 + u) ^ k - 1
  have hd : 0 ≤ d := by have := one_le_pow_u hu k; simp only [d]; linarith
  rcases hy.eq_or_lt with h0 | hpos
  · rw [← h0] at h ⊢
    have : x = 0 := by simpa using h
    simp [this]
  · have hs : 0 < √y := Real.sqrt_pos.2 hpos
    have e : √y * √y = y := Real.mul_self_sqrt hy
    by_cases hx : 0 ≤ x
    · have ex : √x * √x = x := Real.mul_self_sqrt hx
      have hx' := Real.sqrt_nonneg x
      have : |√x - √y| * √y ≤ d * √y * √y := by
        calc |√x - √y| * √y ≤ |√x - √y| * |√x + √y| := by
              refine mul_le_mul_of_nonneg_left ?_ (abs_nonneg _)
              rw [abs_of_nonneg (by linarith)]; linarith
          _ = |x - y| := by rw [← abs_mul]; congr 1; nlinarith
          _ ≤ d * y := h
          _ = _ := by rw [mul_assoc, e]
      exact le_of_mul_le_mul_right this hs
    · have : √x = 0 := Real.sqrt_eq_zero_of_nonpos (by linarith)
      rw [this, zero_sub, abs_neg, abs_of_nonneg hs.le]
      have h1 := (abs_le.1 h).1
      have : 1 ≤ d := by
        by_contra hc
        push Not at hc
        have := mul_lt_mul_of_pos_right hc hpos
        linarith
      nlinarith

theorem flDot_aux (hu : 0 ≤ u) (hfl : RoundsTo fl u) (l : List ℝ) : ∀ (k : ℕ) (a b : ℝ), 1 ≤ k → Rounds u k a b →
    Rounds u (k + l.length) (l.foldl (fun a x => fl (a + fl (x * x))) a) (b + (l.map fun x => x * x).sum) := by
  induction l with
  | nil => intro k a b _ h; simpa using h
  | cons x l ih =>
    intro k a b hk h
    have h1 : Rounds u k (fl (x * x)) (x * x) := ((Rounds.refl (mul_self_nonneg x)).round hu hfl).mono hu hk
    have := ih (k + 1) _ _ (by omega) ((h.add h1).round hu hfl)
    simp only [List.foldl_cons, List.length_cons, List.map_cons, List.sum_cons]
    rw [show k + (l.length + 1) = k + 1 + l.length by ring, ← add_assoc]
    exact this

theorem flDot_rounds (hu : 0 ≤ u) (hfl : RoundsTo fl u) (l : List ℝ) :
    Rounds u (1 + l.length) (flDot fl l) (l.map fun x => x * x).sum := by
  have := flDot_aux hu hfl l 1 0 0 le_rfl ((Rounds.refl le_rfl).mono hu (by omega))
  rwa [zero_add] at this

theorem sum_re_im (v : Arr) : ((v.map Complex.re).map fun x => x * x).sum + ((v.map Complex.im).map fun x => x * x).sum =
    (v.map fun z => ‖z‖ ^ 2).sum := by
  induction v with
  | nil => simp
  | cons z v ih =>
    simp only [List.map_cons, List.sum_cons]
    rw [← norm_sq_parts z, ← ih]
    ring

theorem rounded_normPow2 (hu : 0 ≤ u) (hfl : RoundsTo fl u) (cos sin : ℝ → ℝ) (v : Arr) :
    Rounds u (2 * v.length + 7) ((FloatOps.rounded fl cos sin).normPow2 v) (v.map fun z => ‖z‖ ^ 2).sum := by
  have h1 := flDot_rounds hu hfl (v.map Complex.re)
  have h2 := flDot_rounds hu hfl (v.map Complex.im)
  rw [List.length_map] at h1 h2
  have h3 := (h1.add h2).round hu hfl
  rw [sum_re_im] at h3
  have h4 := (((h3.sqrt hu).round hu hfl).mul_self hu).round hu hfl
  rw [Real.mul_self_sqrt h3.1] at h4
  exact h4.mono hu (by omega)

theorem sqrt2Inv_near (hu : 0 ≤ u) (hu4 : u ≤ 1 / 4) (hfl : RoundsTo fl u) : |fl (1 / fl √2) - 1 / √2| ≤ 4 * u := by
  have hs : 0 < √(2 : ℝ) := by positivity
  have h1 := hfl √2
  rw [abs_of_pos hs] at h1
  have h2 := abs_le.1 h1
  have hpos : 3 / 4 * √2 ≤ fl √2 := by nlinarith
  have hp : 0 < fl √2 := lt_of_lt_of_le (by positivity) hpos
  have hle : 1 ≤ √(2 : ℝ) := Real.one_le_sqrt.2 (by norm_num)
  have h3 : |1 / fl √2 - 1 / √2| ≤ 4 / 3 * u := by
    rw [div_sub_div _ _ hp.ne' hs.ne', abs_div, div_le_iff₀ (by positivity), abs_of_pos (mul_pos hp hs), one_mul, mul_one,
      abs_sub_comm]
    refine h1.trans ?_
    nlinarith [mul_le_mul_of_nonneg_right hpos hs.le, mul_nonneg hu hs.le]
  have h4 : |1 / fl √2| ≤ 4 / 3 := by
    rw [abs_of_pos (by positivity), div_le_iff₀ hp]
    nlinarith
  have h5 := hfl (1 / fl √2)
  rw [show fl (1 / fl √2) - 1 / √2 = (fl (1 / fl √2) - 1 / fl √2) + (1 / fl √2 - 1 / √2) by ring]
  refine (abs_add_le _ _).trans ?_
  have := mul_le_mul_of_nonneg_left h4 hu
  linarith

end

end Spec
