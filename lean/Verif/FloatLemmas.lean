import Verif.FloatKernels
import Verif.AngleLemmas

/-! Lemmas: the rounding error of one pass over the amplitudes. -/

set_option linter.unusedSimpArgs false
set_option linter.unusedVariables false

namespace Spec

open Blueqat

noncomputable section

/-! ## From pairs of amplitudes to states -/

theorem gap_appF {n t : ℕ} (ht : t < n) {f0 f1 : ℂ → ℂ → ℂ} {M : M2} {C : ℝ} (hC : 0 ≤ C)
    (h0 : ∀ x y, ‖f0 x y - (M.a * x + M.b * y)‖ ≤ C * (‖x‖ + ‖y‖))
    (h1 : ∀ x y, ‖f1 x y - (M.c * x + M.d * y)‖ ≤ C * (‖x‖ + ‖y‖)) (ψ : Vec) :
    gap n (appF f0 f1 t ψ) (app M t ψ) ≤ 2 * C * Real.sqrt (normSqN n ψ) := by
  have key : normSqN n (fun i => appF f0 f1 t ψ i - app M t ψ i) ≤ (2 * C) ^ 2 * normSqN n ψ := by
    rw [normSqN, normSqN, sum_pair ht, sum_pair ht (fun i => ‖ψ i‖ ^ 2), Finset.mul_sum]
    refine Finset.sum_le_sum fun i hi => ?_
    have hb := (Finset.mem_filter.1 hi).2
    have e0 := h0 (ψ i) (ψ (flipBit t i))
    have e1 := h1 (ψ i) (ψ (flipBit t i))
    simp only [appF, app, testBit_flipBit_self, hb, flipBit_flipBit, Bool.not_false, if_true, Bool.false_eq_true, if_false]
    have q0 := pow_le_pow_left₀ (norm_nonneg _) e0 2
    have q1 := pow_le_pow_left₀ (norm_nonneg _) e1 2
    have hx := norm_nonneg (ψ i)
    have hy := norm_nonneg (ψ (flipBit t i))
    have : C ^ 2 * (‖ψ i‖ - ‖ψ (flipBit t i)‖) ^ 2 ≥ 0 := by positivity
    nlinarith
  rw [gap]
  refine (Real.sqrt_le_sqrt key).trans ?_
  rw [Real.sqrt_mul (by positivity), Real.sqrt_sq (by positivity)]

theorem gap_ctrl (n c : ℕ) (U V : Vec → Vec) (ψ : Vec) :
    gap n (ctrl c U ψ) (ctrl c V ψ) ≤ gap n (U ψ) (V ψ) := by
  refine Real.sqrt_le_sqrt (Finset.sum_le_sum fun i _ => ?_)
  simp only [ctrl]
  split_ifs
  · exact le_refl _
  · simp

/-! ## The coefficients -/

variable {F : FloatOps} {ε ν Θ : ℝ}

theorem mul_near {m : ℕ} (hF : Accurate F m ε ν) (hε : 0 ≤ ε) {a b a' b' : ℂ} {α β : ℝ} (ha : ‖a' - a‖ ≤ α) (hb : ‖b' - b‖ ≤ β)
    (na : ‖a‖ ≤ 1) (nb : ‖b‖ ≤ 1) : ‖F.mul a' b' - a * b‖ ≤ ε * ((1 + α) * (1 + β)) + α * (1 + β) + β := by
  have hα := (norm_nonneg _).trans ha
  have hβ := (norm_nonneg _).trans hb
  have na' : ‖a'‖ ≤ 1 + α := by
    have := norm_add_le a (a' - a); rw [add_sub_cancel] at this; linarith
  have nb' : ‖b'‖ ≤ 1 + β := by
    have := norm_add_le b (b' - b); rw [add_sub_cancel] at this; linarith
  have e : F.mul a' b' - a * b = (F.mul a' b' - a' * b') + (a' - a) * b' + a * (b' - b) := by ring
  rw [e]
  refine (norm_add_le _ _).trans (add_le_add ((norm_add_le _ _).trans (add_le_add ?_ ?_)) ?_)
  · refine (hF.mul a' b').trans (mul_le_mul_of_nonneg_left ?_ hε)
    rw [norm_mul]; exact mul_le_mul na' nb' (norm_nonneg _) (by linarith)
  · rw [norm_mul]; exact mul_le_mul ha nb' (norm_nonneg _) hα
  · rw [norm_mul]
    calc ‖a‖ * ‖b' - b‖ ≤ 1 * β := mul_le_mul na hb (norm_nonneg _) (by norm_num)
      _ = β := one_mul _

theorem mul_amp {m : ℕ} (hF : Accurate F m ε ν) (hε : 0 ≤ ε) {a a' : ℂ} {α : ℝ} (ha : ‖a' - a‖ ≤ α) (na : ‖a‖ ≤ 1) (x : ℂ) :
    ‖F.mul a' x - a * x‖ ≤ (ε * (1 + α) + α) * ‖x‖ := by
  have hα := (norm_nonneg _).trans ha
  have na' : ‖a'‖ ≤ 1 + α := by
    have := norm_add_le a (a' - a); rw [add_sub_cancel] at this; linarith
  have e : F.mul a' x - a * x = (F.mul a' x - a' * x) + (a' - a) * x := by ring
  rw [e, add_mul]
  refine (norm_add_le _ _).trans (add_le_add ?_ ?_)
  · refine (hF.mul a' x).trans ?_
    rw [norm_mul, mul_assoc]
    exact mul_le_mul_of_nonneg_left (mul_le_mul_of_nonneg_right na' (norm_nonneg _)) hε
  · rw [norm_mul]; exact mul_le_mul_of_nonneg_right ha (norm_nonneg _)

theorem amp_mul {m : ℕ} (hF : Accurate F m ε ν) (hε : 0 ≤ ε) {a a' : ℂ} {α : ℝ} (ha : ‖a' - a‖ ≤ α) (na : ‖a‖ ≤ 1) (x : ℂ) :
    ‖F.mul x a' - a * x‖ ≤ (ε * (1 + α) + α) * ‖x‖ := by
  have hα := (norm_nonneg _).trans ha
  have na' : ‖a'‖ ≤ 1 + α := by
    have := norm_add_le a (a' - a); rw [add_sub_cancel] at this; linarith
  have e : F.mul x a' - a * x = (F.mul x a' - x * a') + (a' - a) * x := by ring
  rw [e, add_mul]
  refine (norm_add_le _ _).trans (add_le_add ?_ ?_)
  · refine (hF.mul x a').trans ?_
    rw [norm_mul, mul_assoc, mul_comm ‖x‖]
    exact mul_le_mul_of_nonneg_left (mul_le_mul_of_nonneg_right na' (norm_nonneg _)) hε
  · rw [norm_mul]; exact mul_le_mul_of_nonneg_right ha (norm_nonneg _)

theorem add_amp {m : ℕ} (hF : Accurate F m ε ν) (hε : 0 ≤ ε) {a b p q x y : ℂ} {e : ℝ} (na : ‖a‖ ≤ 1) (nb : ‖b‖ ≤ 1)
    (hp : ‖p - a * x‖ ≤ e * ‖x‖) (hq : ‖q - b * y‖ ≤ e * ‖y‖) :
    ‖F.add p q - (a * x + b * y)‖ ≤ (ε * (1 + e) + e) * (‖x‖ + ‖y‖) := by
  have np : ‖p‖ ≤ (1 + e) * ‖x‖ := by
    have := norm_add_le (a * x) (p - a * x)
    rw [add_sub_cancel, norm_mul] at this
    have h2 := mul_le_mul_of_nonneg_right na (norm_nonneg x)
    linarith
  have nq : ‖q‖ ≤ (1 + e) * ‖y‖ := by
    have := norm_add_le (b * y) (q - b * y)
    rw [add_sub_cancel, norm_mul] at this
    have h2 := mul_le_mul_of_nonneg_right nb (norm_nonneg y)
    linarith
  have e1 : F.add p q - (a * x + b * y) = (F.add p q - (p + q)) + (p - a * x) + (q - b * y) := by ring
  rw [e1]
  refine (norm_add_le _ _).trans ((add_le_add ((norm_add_le _ _).trans (add_le_add (hF.add p q) hp)) hq).trans ?_)
  have := mul_le_mul_of_nonneg_left ((norm_add_le p q).trans (add_le_add np nq)) hε
  linarith

theorem sub_amp {m : ℕ} (hF : Accurate F m ε ν) (hε : 0 ≤ ε) {a b p q x y : ℂ} {e : ℝ} (na : ‖a‖ ≤ 1) (nb : ‖b‖ ≤ 1)
    (hp : ‖p - a * x‖ ≤ e * ‖x‖) (hq : ‖q - b * y‖ ≤ e * ‖y‖) :
    ‖F.sub p q - (a * x + -b * y)‖ ≤ (ε * (1 + e) + e) * (‖x‖ + ‖y‖) := by
  have np : ‖p‖ ≤ (1 + e) * ‖x‖ := by
    have := norm_add_le (a * x) (p - a * x)
    rw [add_sub_cancel, norm_mul] at this
    have h2 := mul_le_mul_of_nonneg_right na (norm_nonneg x)
    linarith
  have nq : ‖q‖ ≤ (1 + e) * ‖y‖ := by
    have := norm_add_le (b * y) (q - b * y)
    rw [add_sub_cancel, norm_mul] at this
    have h2 := mul_le_mul_of_nonneg_right nb (norm_nonneg y)
    linarith
  have e1 : F.sub p q - (a * x + -b * y) = (F.sub p q - (p - q)) + (p - a * x) - (q - b * y) := by ring
  rw [e1]
  refine (norm_sub_le _ _).trans ((add_le_add ((norm_add_le _ _).trans (add_le_add (hF.sub p q) hp)) hq).trans ?_)
  have := mul_le_mul_of_nonneg_left ((norm_sub_le p q).trans (add_le_add np nq)) hε
  linarith

/-- The hypotheses on the sizes: `u = (1 + Θ) ε` is small. -/
structure Small (ε Θ u : ℝ) : Prop where
  eps : 0 ≤ ε
  ang : 0 ≤ Θ
  eq : ε + Θ * ε = u
  le : 88 * u ≤ 1

theorem Small.nn (h : Small ε Θ u) : 0 ≤ Θ * ε := mul_nonneg h.ang h.eps
theorem Small.eps_le (h : Small ε Θ u) : ε ≤ u := by have := h.nn; have := h.eq; linarith
theorem Small.u_nn (h : Small ε Θ u) : 0 ≤ u := h.eps.trans h.eps_le
theorem Small.eps_le_one (h : Small ε Θ u) : 88 * ε ≤ 1 := by have := h.eps_le; have := h.le; linarith

theorem par_near {m : ℕ} (hF : Accurate F m ε ν) (hS : Small ε Θ u) {x : ℝ} (hx : |x| ≤ Θ) : |F.par x - x| ≤ Θ * ε := by
  refine (hF.par x).trans ?_
  rw [mul_comm]; exact mul_le_mul_of_nonneg_right hx hS.eps

theorem half_near {m : ℕ} (hF : Accurate F m ε ν) (hS : Small ε Θ u) {x' x R : ℝ} (hx : |x| ≤ R) (h : |x' - x| ≤ δ) :
    |F.rmul x' 0.5 - x / 2| ≤ δ / 2 + ε * ((R + δ) / 2) := by
  have h1 := hF.rmul x' 0.5
  have hx' : |x'| ≤ R + δ := by
    have := abs_add_le x (x' - x); rw [add_sub_cancel] at this; linarith
  have e : F.rmul x' 0.5 - x / 2 = (F.rmul x' 0.5 - x' * 0.5) + (x' - x) * (1 / 2) := by norm_num; ring
  rw [e]
  refine (abs_add_le _ _).trans ?_
  rw [abs_mul (x' - x)]
  rw [abs_mul] at h1
  norm_num at h1 ⊢
  have := mul_le_mul_of_nonneg_left hx' hS.eps
  nlinarith

theorem cos_near {m : ℕ} (hF : Accurate F m ε ν) (x y : ℝ) : |F.cos x - Real.cos y| ≤ ε + |x - y| := by
  have h1 := hF.cos x
  have h2 : |Real.cos x - Real.cos y| ≤ |x - y| := by
    have := cos_sin_sub_sq_le x y
    refine sq_le_sq.1 ?_
    nlinarith [sq_nonneg (Real.sin x - Real.sin y)]
  have e : F.cos x - Real.cos y = (F.cos x - Real.cos x) + (Real.cos x - Real.cos y) := by ring
  rw [e]
  exact (abs_add_le _ _).trans (add_le_add h1 h2)

theorem sin_near {m : ℕ} (hF : Accurate F m ε ν) (x y : ℝ) : |F.sin x - Real.sin y| ≤ ε + |x - y| := by
  have h1 := hF.sin x
  have h2 : |Real.sin x - Real.sin y| ≤ |x - y| := by
    have := cos_sin_sub_sq_le x y
    refine sq_le_sq.1 ?_
    nlinarith [sq_nonneg (Real.cos x - Real.cos y)]
  have e : F.sin x - Real.sin y = (F.sin x - Real.sin x) + (Real.sin x - Real.sin y) := by ring
  rw [e]
  exact (abs_add_le _ _).trans (add_le_add h1 h2)

theorem cexp_near {m : ℕ} (hF : Accurate F m ε ν) (x y : ℝ) : ‖flCexp F x - cis y‖ ≤ 2 * ε + |x - y| := by
  have h0 : ‖flCexp F x - cis x‖ ≤ 2 * ε := by
    have h1 := hF.cos x
    have h2 := hF.sin x
    refine (Complex.norm_le_abs_re_add_abs_im _).trans ?_
    simp only [flCexp, cis, Complex.sub_re, Complex.sub_im, Complex.exp_ofReal_mul_I_re, Complex.exp_ofReal_mul_I_im]
    linarith
  have h1 := cis_sub_le x y
  have e : flCexp F x - cis y = (flCexp F x - cis x) + (cis x - cis y) := by ring
  rw [e]
  exact (norm_add_le _ _).trans (add_le_add h0 h1)

theorem cexpNeg_near {m : ℕ} (hF : Accurate F m ε ν) (x y : ℝ) : ‖flCexpNeg F x - cis (-y)‖ ≤ 2 * ε + |x - y| := by
  have h0 : ‖flCexpNeg F x - cis (-x)‖ ≤ 2 * ε := by
    have h1 := hF.cos x
    have h2 := hF.sin x
    refine (Complex.norm_le_abs_re_add_abs_im _).trans ?_
    simp only [flCexpNeg, cis, Complex.sub_re, Complex.sub_im, Complex.exp_ofReal_mul_I_re, Complex.exp_ofReal_mul_I_im,
      Real.cos_neg, Real.sin_neg]
    rw [show -F.sin x - -Real.sin x = -(F.sin x - Real.sin x) by ring, abs_neg]
    linarith
  have h1 := cis_sub_le (-x) (-y)
  rw [show -x - -y = -(x - y) by ring, abs_neg] at h1
  have e : flCexpNeg F x - cis (-y) = (flCexpNeg F x - cis (-x)) + (cis (-x) - cis (-y)) := by ring
  rw [e]
  exact (norm_add_le _ _).trans (add_le_add h0 h1)

/-- The rounded half of a rounded angle. -/
theorem halfpar_near {m : ℕ} (hF : Accurate F m ε ν) (hS : Small ε Θ u) {θ : ℝ} (hθ : |θ| ≤ Θ) :
    |F.rmul (F.par θ) 0.5 - θ / 2| ≤ 2 * (Θ * ε) := by
  refine (half_near hF hS hθ (par_near hF hS hθ)).trans ?_
  have h1 := hS.nn
  have h2 := hS.eps_le_one
  have h3 := hS.eps
  nlinarith [mul_nonneg h1 h3]

theorem abs_ofReal_sub (x y : ℝ) : ‖(x : ℂ) - (y : ℂ)‖ = |x - y| := by
  rw [← Complex.ofReal_sub, Complex.norm_real, Real.norm_eq_abs]

theorem coshalf_near {m : ℕ} (hF : Accurate F m ε ν) (hS : Small ε Θ u) {θ : ℝ} (hθ : |θ| ≤ Θ) :
    ‖(F.cos (F.rmul (F.par θ) 0.5) : ℂ) - (Real.cos (θ / 2) : ℂ)‖ ≤ 2 * u := by
  rw [abs_ofReal_sub]
  have h1 := cos_near hF (F.rmul (F.par θ) 0.5) (θ / 2)
  have h2 := halfpar_near hF hS hθ
  have := hS.eq; have := hS.eps; linarith

theorem sinhalf_near {m : ℕ} (hF : Accurate F m ε ν) (hS : Small ε Θ u) {θ : ℝ} (hθ : |θ| ≤ Θ) :
    ‖(F.sin (F.rmul (F.par θ) 0.5) : ℂ) - (Real.sin (θ / 2) : ℂ)‖ ≤ 2 * u := by
  rw [abs_ofReal_sub]
  have h1 := sin_near hF (F.rmul (F.par θ) 0.5) (θ / 2)
  have h2 := halfpar_near hF hS hθ
  have := hS.eq; have := hS.eps; linarith

theorem norm_cos_le (x : ℝ) : ‖(Real.cos x : ℂ)‖ ≤ 1 := by
  rw [Complex.norm_real]; exact Real.abs_cos_le_one x

theorem norm_sin_le (x : ℝ) : ‖(Real.sin x : ℂ)‖ ≤ 1 := by
  rw [Complex.norm_real]; exact Real.abs_sin_le_one x

theorem isin_near {m : ℕ} (hF : Accurate F m ε ν) (hS : Small ε Θ u) {θ : ℝ} (hθ : |θ| ≤ Θ) :
    ‖F.mul (-Complex.I) (F.sin (F.rmul (F.par θ) 0.5) : ℂ) - -Complex.I * (Real.sin (θ / 2) : ℂ)‖ ≤ 4 * u := by
  refine (mul_near hF hS.eps (α := 0) (by simp) (sinhalf_near hF hS hθ) (by simp) (norm_sin_le _)).trans ?_
  have := hS.eps_le; have := hS.eps; have := hS.le; have := hS.u_nn
  nlinarith

theorem cexphalf_near {m : ℕ} (hF : Accurate F m ε ν) (hS : Small ε Θ u) {θ : ℝ} (hθ : |θ| ≤ Θ) :
    ‖flCexp F (F.rmul (F.par θ) 0.5) - cis (θ / 2)‖ ≤ 2 * u := by
  refine (cexp_near hF _ _).trans ?_
  have := halfpar_near hF hS hθ; have := hS.eq; linarith

theorem cexpNeghalf_near {m : ℕ} (hF : Accurate F m ε ν) (hS : Small ε Θ u) {θ : ℝ} (hθ : |θ| ≤ Θ) :
    ‖flCexpNeg F (F.rmul (F.par θ) 0.5) - cis (-(θ / 2))‖ ≤ 2 * u := by
  refine (cexpNeg_near hF _ _).trans ?_
  have := halfpar_near hF hS hθ; have := hS.eq; linarith

theorem cexppar_near {m : ℕ} (hF : Accurate F m ε ν) (hS : Small ε Θ u) {θ : ℝ} (hθ : |θ| ≤ Θ) :
    ‖flCexp F (F.par θ) - cis θ‖ ≤ 2 * u := by
  refine (cexp_near hF _ _).trans ?_
  have := par_near hF hS hθ; have := hS.eq; have := hS.nn; linarith

theorem cexpsum_near {m : ℕ} (hF : Accurate F m ε ν) (hS : Small ε Θ u) {φ lam : ℝ} (hφ : |φ| ≤ Θ) (hl : |lam| ≤ Θ) :
    ‖flCexp F (F.radd (F.par φ) (F.par lam)) - cis (φ + lam)‖ ≤ 5 * u := by
  refine (cexp_near hF _ _).trans ?_
  have h1 := par_near hF hS hφ
  have h2 := par_near hF hS hl
  have h3 := hF.radd (F.par φ) (F.par lam)
  have h4 : |F.par φ + F.par lam - (φ + lam)| ≤ 2 * (Θ * ε) := by
    rw [show F.par φ + F.par lam - (φ + lam) = (F.par φ - φ) + (F.par lam - lam) by ring]
    exact (abs_add_le _ _).trans (by linarith)
  have h5 : |F.par φ + F.par lam| ≤ 2 * Θ + 2 * (Θ * ε) := by
    have := abs_add_le (φ + lam) (F.par φ + F.par lam - (φ + lam))
    rw [add_sub_cancel] at this
    have := abs_add_le φ lam
    linarith
  have h6 : |F.radd (F.par φ) (F.par lam) - (φ + lam)| ≤ 5 * (Θ * ε) := by
    rw [show F.radd (F.par φ) (F.par lam) - (φ + lam) = (F.radd (F.par φ) (F.par lam) - (F.par φ + F.par lam)) +
      (F.par φ + F.par lam - (φ + lam)) by ring]
    refine (abs_add_le _ _).trans ?_
    have := mul_le_mul_of_nonneg_left h5 hS.eps
    have := hS.eps_le_one; have := hS.nn
    nlinarith
  have := hS.eq; have := hS.eps; linarith

theorem globalphase_near {m : ℕ} (hF : Accurate F m ε ν) (hS : Small ε Θ u) {φ lam : ℝ} (hφ : |φ| ≤ Θ) (hl : |lam| ≤ Θ) :
    ‖flCexp F (F.rmul (F.rsub (-F.par φ) (F.par lam)) 0.5) - cis (-((φ + lam) / 2))‖ ≤ 5 * u := by
  refine (cexp_near hF _ _).trans ?_
  have h1 := par_near hF hS hφ
  have h2 := par_near hF hS hl
  have h3 := hF.rsub (-F.par φ) (F.par lam)
  have h4 : |(-F.par φ - F.par lam) - -(φ + lam)| ≤ 2 * (Θ * ε) := by
    rw [show (-F.par φ - F.par lam) - -(φ + lam) = -((F.par φ - φ) + (F.par lam - lam)) by ring, abs_neg]
    exact (abs_add_le _ _).trans (by linarith)
  have h0 : |-(φ + lam)| ≤ 2 * Θ := by
    rw [abs_neg]; exact (abs_add_le _ _).trans (by linarith)
  have h5 : |-F.par φ - F.par lam| ≤ 2 * Θ + 2 * (Θ * ε) := by
    have := abs_add_le (-(φ + lam)) ((-F.par φ - F.par lam) - -(φ + lam))
    rw [add_sub_cancel] at this
    linarith
  have h6 : |F.rsub (-F.par φ) (F.par lam) - -(φ + lam)| ≤ 5 * (Θ * ε) := by
    rw [show F.rsub (-F.par φ) (F.par lam) - -(φ + lam) = (F.rsub (-F.par φ) (F.par lam) - (-F.par φ - F.par lam)) +
      ((-F.par φ - F.par lam) - -(φ + lam)) by ring]
    refine (abs_add_le _ _).trans ?_
    have := mul_le_mul_of_nonneg_left h5 hS.eps
    have := hS.eps_le_one; have := hS.nn
    nlinarith
  have h7 := half_near hF hS h0 h6
  rw [show -(φ + lam) / 2 = -((φ + lam) / 2) by ring] at h7
  have := hS.eq; have := hS.eps; have := hS.nn; have := hS.eps_le_one
  nlinarith

theorem u3coef_near {m : ℕ} (hF : Accurate F m ε ν) (hS : Small ε Θ u) {a a' g g' z z' : ℂ} (na : ‖a‖ ≤ 1) (ng : ‖g‖ ≤ 1)
    (nz : ‖z‖ ≤ 1) (ha : ‖a' - a‖ ≤ 2 * u) (hg : ‖g' - g‖ ≤ 5 * u) (hz : ‖z' - z‖ ≤ 5 * u) :
    ‖F.mul a' g' - a * g‖ ≤ 10 * u ∧ ‖F.mul (F.mul a' g') z' - a * g * z‖ ≤ 18 * u := by
  have hu := hS.u_nn; have hle := hS.le; have he := hS.eps; have heu := hS.eps_le
  have h1 : ‖F.mul a' g' - a * g‖ ≤ 10 * u := by
    refine (mul_near hF he ha hg na ng).trans ?_
    have h : (1 + 2 * u) * (1 + 5 * u) ≤ 3 / 2 := by nlinarith
    have := mul_le_mul_of_nonneg_left h he
    nlinarith
  refine ⟨h1, (mul_near hF he h1 hz ?_ nz).trans ?_⟩
  · rw [norm_mul]; exact mul_le_one₀ na (norm_nonneg _) ng
  · have h : (1 + 10 * u) * (1 + 5 * u) ≤ 3 / 2 := by nlinarith
    have := mul_le_mul_of_nonneg_left h he
    nlinarith

/-- Coefficients with an error of `18 u`, used for a pair of amplitudes. -/
theorem coef_pair (hS : Small ε Θ u) : ε * (1 + (ε * (1 + 18 * u) + 18 * u)) + (ε * (1 + 18 * u) + 18 * u) ≤ 22 * u := by
  have hu := hS.u_nn; have hle := hS.le; have he := hS.eps; have heu := hS.eps_le
  have h1 : ε * (1 + 18 * u) + 18 * u ≤ 20 * u := by nlinarith
  have := mul_le_mul_of_nonneg_left h1 he
  nlinarith

/-! ## One pass -/

theorem coef_one (hS : Small ε Θ u) : ε * (1 + 18 * u) + 18 * u ≤ 22 * u := by
  have hu := hS.u_nn; have hle := hS.le; have he := hS.eps; have heu := hS.eps_le
  nlinarith

theorem gap_rot {n : ℕ} (hF : Accurate F n ε ν) (hS : Small ε Θ u) {t : ℕ} (ht : t < n) {M : M2} {a b c d : ℂ}
    (na : ‖M.a‖ ≤ 1) (nb : ‖M.b‖ ≤ 1) (nc : ‖M.c‖ ≤ 1) (nd : ‖M.d‖ ≤ 1)
    (ha : ‖a - M.a‖ ≤ 18 * u) (hb : ‖b - M.b‖ ≤ 18 * u) (hc : ‖c - M.c‖ ≤ 18 * u) (hd : ‖d - M.d‖ ≤ 18 * u) (ψ : Vec) :
    gap n (appF (fun x y => F.add (F.mul a x) (F.mul b y)) (fun x y => F.add (F.mul c x) (F.mul d y)) t ψ)
      (app M t ψ) ≤ 44 * u * Real.sqrt (normSqN n ψ) := by
  have := gap_appF ht (M := M) (C := 22 * u) (f0 := fun x y => F.add (F.mul a x) (F.mul b y))
    (f1 := fun x y => F.add (F.mul c x) (F.mul d y)) (by have := hS.u_nn; linarith)
    (fun x y => (add_amp hF hS.eps na nb (mul_amp hF hS.eps ha na x) (mul_amp hF hS.eps hb nb y)).trans
      (mul_le_mul_of_nonneg_right (coef_pair hS) (by positivity)))
    (fun x y => (add_amp hF hS.eps nc nd (mul_amp hF hS.eps hc nc x) (mul_amp hF hS.eps hd nd y)).trans
      (mul_le_mul_of_nonneg_right (coef_pair hS) (by positivity))) ψ
  refine this.trans (le_of_eq (by ring))

theorem gap_urot {n : ℕ} (hF : Accurate F n ε ν) (hS : Small ε Θ u) {t : ℕ} (ht : t < n) {M : M2} {a b c d : ℂ}
    (na : ‖M.a‖ ≤ 1) (nb : ‖-M.b‖ ≤ 1) (nc : ‖M.c‖ ≤ 1) (nd : ‖M.d‖ ≤ 1)
    (ha : ‖a - M.a‖ ≤ 18 * u) (hb : ‖b - -M.b‖ ≤ 18 * u) (hc : ‖c - M.c‖ ≤ 18 * u) (hd : ‖d - M.d‖ ≤ 18 * u) (ψ : Vec) :
    gap n (appF (fun x y => F.sub (F.mul x a) (F.mul y b)) (fun x y => F.add (F.mul x c) (F.mul y d)) t ψ)
      (app M t ψ) ≤ 44 * u * Real.sqrt (normSqN n ψ) := by
  have := gap_appF ht (M := M) (C := 22 * u) (f0 := fun x y => F.sub (F.mul x a) (F.mul y b))
    (f1 := fun x y => F.add (F.mul x c) (F.mul y d)) (by have := hS.u_nn; linarith)
    (fun x y => by
      have := (sub_amp hF hS.eps na nb (amp_mul hF hS.eps ha na x) (amp_mul hF hS.eps hb nb y)).trans
        (mul_le_mul_of_nonneg_right (coef_pair hS) (by positivity))
      rwa [neg_neg] at this)
    (fun x y => (add_amp hF hS.eps nc nd (amp_mul hF hS.eps hc nc x) (amp_mul hF hS.eps hd nd y)).trans
      (mul_le_mul_of_nonneg_right (coef_pair hS) (by positivity))) ψ
  refine this.trans (le_of_eq (by ring))

theorem amp_one {m : ℕ} (hF : Accurate F m ε ν) (hS : Small ε Θ u) {a a' : ℂ} (na : ‖a‖ ≤ 1) (ha : ‖a' - a‖ ≤ 18 * u) (x y : ℂ) :
    ‖F.mul x a' - (a * x + 0 * y)‖ ≤ 22 * u * (‖x‖ + ‖y‖) ∧ ‖F.mul x a' - (0 * y + a * x)‖ ≤ 22 * u * (‖y‖ + ‖x‖) := by
  have h := (amp_mul hF hS.eps ha na x).trans (mul_le_mul_of_nonneg_right (coef_one hS) (norm_nonneg _))
  have h2 : 0 ≤ 22 * u * ‖y‖ := by have := hS.u_nn; positivity
  rw [zero_mul, add_zero, zero_add]
  constructor <;> linarith

theorem gap_fdiag {n : ℕ} (hF : Accurate F n ε ν) (hS : Small ε Θ u) {t : ℕ} (ht : t < n) {z w z' w' : ℂ}
    (nz : ‖z‖ ≤ 1) (nw : ‖w‖ ≤ 1) (hz : ‖z' - z‖ ≤ 18 * u) (hw : ‖w' - w‖ ≤ 18 * u) (ψ : Vec) :
    gap n (appF (fun x _ => F.mul x z') (fun _ y => F.mul y w') t ψ) (app ⟨z, 0, 0, w⟩ t ψ) ≤
      44 * u * Real.sqrt (normSqN n ψ) := by
  have := gap_appF ht (M := ⟨z, 0, 0, w⟩) (C := 22 * u) (f0 := fun x _ => F.mul x z') (f1 := fun _ y => F.mul y w')
    (by have := hS.u_nn; linarith) (fun x y => (amp_one hF hS nz hz x y).1) (fun x y => (amp_one hF hS nw hw y x).2) ψ
  refine this.trans (le_of_eq (by ring))

theorem gap_fphase {n : ℕ} (hF : Accurate F n ε ν) (hS : Small ε Θ u) {t : ℕ} (ht : t < n) {w w' : ℂ}
    (nw : ‖w‖ ≤ 1) (hw : ‖w' - w‖ ≤ 18 * u) (ψ : Vec) :
    gap n (appF (fun x _ => x) (fun _ y => F.mul y w') t ψ) (app ⟨1, 0, 0, w⟩ t ψ) ≤
      44 * u * Real.sqrt (normSqN n ψ) := by
  have := gap_appF ht (M := ⟨1, 0, 0, w⟩) (C := 22 * u) (f0 := fun x _ => x) (f1 := fun _ y => F.mul y w')
    (by have := hS.u_nn; linarith)
    (fun x y => by
      have := hS.u_nn
      rw [one_mul, zero_mul, add_zero, sub_self, norm_zero]; positivity)
    (fun x y => (amp_one hF hS nw hw y x).2) ψ
  refine this.trans (le_of_eq (by ring))

theorem gap_fY {n : ℕ} (hF : Accurate F n ε ν) (hS : Small ε Θ u) {t : ℕ} (ht : t < n) (ψ : Vec) :
    gap n (appF (fun _ y => F.mul (-Complex.I) y) (fun x _ => F.mul Complex.I x) t ψ) (app mY t ψ) ≤
      44 * u * Real.sqrt (normSqN n ψ) := by
  have hu := hS.u_nn; have heu := hS.eps_le
  have key : ∀ (a : ℂ), ‖a‖ = 1 → ∀ x y : ℂ, ‖F.mul a x - a * x‖ ≤ 22 * u * (‖y‖ + ‖x‖) := by
    intro a ha x y
    refine (hF.mul a x).trans ?_
    rw [norm_mul, ha, one_mul]
    have := norm_nonneg x; have := norm_nonneg y
    nlinarith [mul_nonneg hu (norm_nonneg y), mul_le_mul_of_nonneg_right heu (norm_nonneg x), mul_nonneg hu (norm_nonneg x)]
  have := gap_appF ht (M := mY) (C := 22 * u) (f0 := fun _ y => F.mul (-Complex.I) y) (f1 := fun x _ => F.mul Complex.I x)
    (by linarith)
    (fun x y => by simpa [mY] using key (-Complex.I) (by simp) y x)
    (fun x y => by simpa [mY, add_comm] using key Complex.I (by simp) x y) ψ
  refine this.trans (le_of_eq (by ring))

theorem h_amp {m : ℕ} (hF : Accurate F m ε ν) (hS : Small ε Θ u) {p s x y : ℂ} (hs : ‖s‖ ≤ ‖x‖ + ‖y‖) (hp : ‖p - s‖ ≤ ε * ‖s‖) :
    ‖F.mul p (F.sqrt2Inv : ℂ) - ((1 / Real.sqrt 2 : ℝ) : ℂ) * s‖ ≤ 22 * u * (‖x‖ + ‖y‖) := by
  have hu := hS.u_nn; have hle := hS.le; have he := hS.eps; have heu := hS.eps_le
  have h1 : ‖((1 / Real.sqrt 2 : ℝ) : ℂ)‖ ≤ 1 := by
    rw [Complex.norm_real, Real.norm_of_nonneg (by positivity), div_le_one (by positivity)]
    rw [Real.le_sqrt (by norm_num) (by norm_num)]; norm_num
  have h2 : ‖(F.sqrt2Inv : ℂ) - ((1 / Real.sqrt 2 : ℝ) : ℂ)‖ ≤ ε := by rw [abs_ofReal_sub]; exact hF.sqrt2Inv
  have h3 := amp_mul hF he h2 h1 p
  have np : ‖p‖ ≤ (1 + ε) * ‖s‖ := by
    have := norm_add_le s (p - s); rw [add_sub_cancel] at this; linarith
  have e : F.mul p (F.sqrt2Inv : ℂ) - ((1 / Real.sqrt 2 : ℝ) : ℂ) * s =
      (F.mul p (F.sqrt2Inv : ℂ) - ((1 / Real.sqrt 2 : ℝ) : ℂ) * p) + ((1 / Real.sqrt 2 : ℝ) : ℂ) * (p - s) := by ring
  rw [e]
  refine (norm_add_le _ _).trans ?_
  rw [norm_mul]
  have h4 : ‖((1 / Real.sqrt 2 : ℝ) : ℂ)‖ * ‖p - s‖ ≤ 1 * (ε * ‖s‖) := mul_le_mul h1 hp (norm_nonneg _) (by norm_num)
  have h5 : ε * (1 + ε) + ε ≤ 3 * u := by nlinarith
  have h6 : (ε * (1 + ε) + ε) * ‖p‖ ≤ 3 * u * (2 * ‖s‖) := by
    refine mul_le_mul h5 (np.trans ?_) (norm_nonneg _) (by linarith)
    exact mul_le_mul_of_nonneg_right (by linarith) (norm_nonneg _)
  have h7 : ε * ‖s‖ ≤ u * ‖s‖ := mul_le_mul_of_nonneg_right heu (norm_nonneg _)
  have h8 : u * ‖s‖ ≤ u * (‖x‖ + ‖y‖) := mul_le_mul_of_nonneg_left hs hu
  have h9 : 0 ≤ u * (‖x‖ + ‖y‖) := by positivity
  linarith

theorem gap_fH {n : ℕ} (hF : Accurate F n ε ν) (hS : Small ε Θ u) {t : ℕ} (ht : t < n) (ψ : Vec) :
    gap n (appF (fun x y => F.mul (F.add x y) F.sqrt2Inv) (fun x y => F.mul (F.sub x y) F.sqrt2Inv) t ψ) (app mH t ψ) ≤
      44 * u * Real.sqrt (normSqN n ψ) := by
  have := gap_appF ht (M := mH) (C := 22 * u) (f0 := fun x y => F.mul (F.add x y) F.sqrt2Inv)
    (f1 := fun x y => F.mul (F.sub x y) F.sqrt2Inv) (by have := hS.u_nn; linarith)
    (fun x y => by
      have := h_amp hF hS (norm_add_le x y) (hF.add x y)
      rw [mul_add] at this
      simpa [mH] using this)
    (fun x y => by
      have := h_amp hF hS (norm_sub_le x y) (hF.sub x y)
      rwa [show ((1 / Real.sqrt 2 : ℝ) : ℂ) * (x - y) = mH.c * x + mH.d * y by simp [mH]; ring] at this) ψ
  refine this.trans (le_of_eq (by ring))

/-- The rounded matrix of `gate_u3`. -/
theorem gap_fU3 {n : ℕ} (hF : Accurate F n ε ν) (hS : Small ε Θ u) {t : ℕ} (ht : t < n) {θ φ lam : ℝ} (hθ : |θ| ≤ Θ) (hφ : |φ| ≤ Θ)
    (hl : |lam| ≤ Θ) (ψ : Vec) :
    let g := flCexp F (F.rmul (F.rsub (-F.par φ) (F.par lam)) 0.5)
    let c : ℂ := F.cos (F.rmul (F.par θ) 0.5)
    let s : ℂ := F.sin (F.rmul (F.par θ) 0.5)
    gap n (appF (fun x y => F.sub (F.mul x (F.mul c g)) (F.mul y (F.mul (F.mul s g) (flCexp F (F.par lam)))))
      (fun x y => F.add (F.mul x (F.mul (F.mul s g) (flCexp F (F.par φ))))
        (F.mul y (F.mul (F.mul c g) (flCexp F (F.radd (F.par φ) (F.par lam)))))) t ψ)
      (app (mU3 θ φ lam) t ψ) ≤ 44 * u * Real.sqrt (normSqN n ψ) := by
  intro g c s
  have e1 : cis ((φ + lam) / 2) = cis (-((φ + lam) / 2)) * cis (φ + lam) := by
    rw [← cis_add]; congr 1; ring
  have e2 : cis (-((φ - lam) / 2)) = cis (-((φ + lam) / 2)) * cis lam := by
    rw [← cis_add]; congr 1; ring
  have e3 : cis ((φ - lam) / 2) = cis (-((φ + lam) / 2)) * cis φ := by
    rw [← cis_add]; congr 1; ring
  have hu := hS.u_nn
  have hc := coshalf_near hF hS hθ
  have hs := sinhalf_near hF hS hθ
  have hg := globalphase_near hF hS hφ hl
  have n1 : ∀ x, ‖cis x‖ ≤ 1 := fun x => (norm_cis x).le
  have h25 : ∀ {a b : ℂ}, ‖a - b‖ ≤ 2 * u → ‖a - b‖ ≤ 5 * u := fun h => h.trans (by linarith)
  have hA := u3coef_near hF hS (norm_cos_le _) (n1 _) (n1 _) hc hg (cexpsum_near hF hS hφ hl)
  have hB := u3coef_near hF hS (norm_sin_le _) (n1 _) (n1 _) hs hg (h25 (cexppar_near hF hS hl))
  have hC := u3coef_near hF hS (norm_sin_le _) (n1 _) (n1 _) hs hg (h25 (cexppar_near hF hS hφ))
  have m1 : ∀ {a b : ℂ}, ‖a‖ ≤ 1 → ‖b‖ ≤ 1 → ‖a * b‖ ≤ 1 := fun h1 h2 => by
    rw [norm_mul]; exact mul_le_one₀ h1 (norm_nonneg _) h2
  have hM : mU3 θ φ lam = ⟨(Real.cos (θ / 2) : ℂ) * cis (-((φ + lam) / 2)),
      -((Real.sin (θ / 2) : ℂ) * cis (-((φ + lam) / 2)) * cis lam),
      (Real.sin (θ / 2) : ℂ) * cis (-((φ + lam) / 2)) * cis φ,
      (Real.cos (θ / 2) : ℂ) * cis (-((φ + lam) / 2)) * cis (φ + lam)⟩ := by
    simp only [mU3, e1, e2, e3]
    congr 1 <;> ring
  rw [hM]
  refine gap_urot hF hS ht ?_ ?_ ?_ ?_ ?_ ?_ ?_ ?_ ψ
  · exact m1 (norm_cos_le _) (n1 _)
  · simp only [neg_neg]; exact m1 (m1 (norm_sin_le _) (n1 _)) (n1 _)
  · exact m1 (m1 (norm_sin_le _) (n1 _)) (n1 _)
  · exact m1 (m1 (norm_cos_le _) (n1 _)) (n1 _)
  · exact hA.1.trans (by linarith)
  · simp only [neg_neg]; exact hB.2
  · exact hC.2
  · exact hA.2

end

end Spec
