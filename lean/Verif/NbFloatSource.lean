import Verif.NbFloatRefine
import Verif.FloatIeee

/-! Lemmas: kernels computed in source order with accurate arithmetic are accurate. -/

set_option linter.unusedSimpArgs false
set_option linter.unusedVariables false

namespace Spec

open Blueqat

noncomputable section

variable {F : FloatOps} {ε ν Θ u : ℝ}

/-! ## Shapes -/

theorem source_X (C : ℝ) (hC : 0 ≤ C) : StoresNear (fun j _ => storeOf insX j) insX C := by
  have : ∀ t u : ℂ, 0 ≤ C * (‖t‖ + ‖u‖) := fun t u => by positivity
  intro i0 i1 j a f h t u
  rcases j with _ | _ | _ | _ | j <;> simp [insX] at h <;> obtain ⟨rfl, rfl⟩ := h <;>
    simp [storeOf, insX, this]

theorem source_diag {C : ℝ} {z z' : ℂ} (h : ∀ t, ‖F.mul t z' - t * z‖ ≤ C * ‖t‖) (hC : 0 ≤ C) :
    StoresNear (fun j _ => storeOf (flInsDiag F z') j) (insDiag z) C := by
  intro i0 i1 j a f h t u
  rcases j with _ | _ | _ | _ | j <;> simp [insDiag] at h <;> obtain ⟨rfl, rfl⟩ := h
  simp only [storeOf, flInsDiag, List.getElem?_cons_succ, List.getElem?_cons_zero]
  refine (h t).trans (mul_le_mul_of_nonneg_left ?_ hC)
  simp

theorem source_RZ {C : ℝ} {z z' w w' : ℂ} (h : ∀ t, ‖F.mul t z' - t * z‖ ≤ C * ‖t‖) (h' : ∀ t, ‖F.mul t w' - t * w‖ ≤ C * ‖t‖)
    (hC : 0 ≤ C) : StoresNear (fun j _ => storeOf (flInsRZ F z' w') j) (insRZ z w) C := by
  intro i0 i1 j a f h t u
  rcases j with _ | _ | _ | _ | j <;> simp [insRZ] at h <;> obtain ⟨rfl, rfl⟩ := h <;>
    simp only [storeOf, flInsRZ, List.getElem?_cons_succ, List.getElem?_cons_zero]
  · exact (h t).trans (mul_le_mul_of_nonneg_left (by simp) hC)
  · exact (h' t).trans (mul_le_mul_of_nonneg_left (by simp) hC)

theorem source_rot {C : ℝ} {a b c d a' b' c' d' : ℂ}
    (h : ∀ t u, ‖F.add (F.mul a' t) (F.mul b' u) - (a * t + b * u)‖ ≤ C * (‖t‖ + ‖u‖))
    (h' : ∀ t u, ‖F.add (F.mul c' t) (F.mul d' u) - (c * t + d * u)‖ ≤ C * (‖t‖ + ‖u‖)) :
    StoresNear (fun j _ => storeOf (flInsRot F a' b' c' d') j) (insRot a b c d) C := by
  intro i0 i1 j a f h t u
  rcases j with _ | _ | _ | _ | j <;> simp [insRot] at h <;> obtain ⟨rfl, rfl⟩ := h <;>
    simp only [storeOf, flInsRot, List.getElem?_cons_succ, List.getElem?_cons_zero]
  · exact h t u
  · exact h' t u

theorem source_RY {C : ℝ} {a b a' b' : ℂ}
    (h : ∀ t u, ‖F.sub (F.mul a' t) (F.mul b' u) - (a * t - b * u)‖ ≤ C * (‖t‖ + ‖u‖))
    (h' : ∀ t u, ‖F.add (F.mul b' t) (F.mul a' u) - (b * t + a * u)‖ ≤ C * (‖t‖ + ‖u‖)) :
    StoresNear (fun j _ => storeOf (flInsRY F a' b') j) (insRY a b) C := by
  intro i0 i1 j a f h t u
  rcases j with _ | _ | _ | _ | j <;> simp [insRY] at h <;> obtain ⟨rfl, rfl⟩ := h <;>
    simp only [storeOf, flInsRY, List.getElem?_cons_succ, List.getElem?_cons_zero]
  · exact h t u
  · exact h' t u

theorem source_Y {C : ℝ} (h : ∀ t, ‖F.mul t (-Complex.I) - t * (-1 * Complex.I)‖ ≤ C * ‖t‖)
    (h' : ∀ t, ‖F.mul t Complex.I - t * Complex.I‖ ≤ C * ‖t‖) (hC : 0 ≤ C) :
    StoresNear (fun j _ => storeOf (flInsY F) j) insY C := by
  intro i0 i1 j a f h t u
  rcases j with _ | _ | _ | _ | j <;> simp [insY] at h <;> obtain ⟨rfl, rfl⟩ := h <;>
    simp only [storeOf, flInsY, List.getElem?_cons_succ, List.getElem?_cons_zero]
  · have h := h u
    rw [show u * (-1 * Complex.I) = -(u * Complex.I) by ring] at h
    refine h.trans ?_
    have := mul_nonneg hC (norm_nonneg t)
    linarith
  · exact (h' t).trans (mul_le_mul_of_nonneg_left (by simp) hC)

theorem source_H {C : ℝ} (h : ∀ t u, ‖F.mul (F.add t u) F.sqrt2Inv - (t + u) * ((1 / √2 : ℝ) : ℂ)‖ ≤ C * (‖t‖ + ‖u‖))
    (h' : ∀ t u, ‖F.mul (F.sub t u) F.sqrt2Inv - (t - u) * ((1 / √2 : ℝ) : ℂ)‖ ≤ C * (‖t‖ + ‖u‖)) :
    StoresNear (fun j _ => storeOf (flInsH F) j) insH C := by
  intro i0 i1 j a f h t u
  rcases j with _ | _ | _ | _ | j <;> simp [insH] at h <;> obtain ⟨rfl, rfl⟩ := h <;>
    simp only [storeOf, flInsH, List.getElem?_cons_succ, List.getElem?_cons_zero]
  · simpa using h t u
  · simpa using h' t u

theorem source_reduce0 {C : ℝ} {r r' : ℂ} (h : ∀ t, ‖F.mul t r' - t * r‖ ≤ C * ‖t * r‖) :
    StoresRel (fun j _ => storeOf (flInsReduce0 F r') j) (insReduce0 r) C := by
  intro i0 i1 j a f h t u
  rcases j with _ | _ | _ | _ | j <;> simp [insReduce0] at h <;> obtain ⟨rfl, rfl⟩ := h <;>
    simp only [storeOf, flInsReduce0, List.getElem?_cons_succ, List.getElem?_cons_zero]
  · exact h t
  · simp

theorem source_reduce1 {C : ℝ} {r r' : ℂ} (h : ∀ t, ‖F.mul t r' - t * r‖ ≤ C * ‖t * r‖) :
    StoresRel (fun j _ => storeOf (flInsReduce1 F r') j) (insReduce1 r) C := by
  intro i0 i1 j a f h t u
  rcases j with _ | _ | _ | _ | j <;> simp [insReduce1] at h <;> obtain ⟨rfl, rfl⟩ := h <;>
    simp only [storeOf, flInsReduce1, List.getElem?_cons_succ, List.getElem?_cons_zero]
  · exact h t
  · simp

theorem source_reset1 {C : ℝ} {r r' : ℂ} (h : ∀ t, ‖F.mul t r' - t * r‖ ≤ C * ‖t * r‖) :
    StoresRel (fun j _ => storeOf (flInsReset1 F r') j) (insReset1 r) C := by
  intro i0 i1 j a f h t u
  rcases j with _ | _ | _ | _ | j <;> simp [insReset1] at h <;> obtain ⟨rfl, rfl⟩ := h <;>
    simp only [storeOf, flInsReset1, List.getElem?_cons_succ, List.getElem?_cons_zero]
  · exact h u
  · simp

/-! ## Constants -/

theorem src_mul {m : ℕ} (hF : Accurate F m ε ν) (hS : Small ε Θ u) {a a' : ℂ} (na : ‖a‖ ≤ 1) (ha : ‖a' - a‖ ≤ 18 * u) (t : ℂ) :
    ‖F.mul t a' - t * a‖ ≤ 22 * u * ‖t‖ := by
  rw [mul_comm t a]
  exact (amp_mul hF hS.eps ha na t).trans (mul_le_mul_of_nonneg_right (coef_one hS) (norm_nonneg _))

theorem src_add {m : ℕ} (hF : Accurate F m ε ν) (hS : Small ε Θ u) {a a' b b' : ℂ} (na : ‖a‖ ≤ 1) (nb : ‖b‖ ≤ 1)
    (ha : ‖a' - a‖ ≤ 18 * u) (hb : ‖b' - b‖ ≤ 18 * u) (t w : ℂ) :
    ‖F.add (F.mul a' t) (F.mul b' w) - (a * t + b * w)‖ ≤ 22 * u * (‖t‖ + ‖w‖) :=
  (add_amp hF hS.eps na nb (mul_amp hF hS.eps ha na t) (mul_amp hF hS.eps hb nb w)).trans
    (mul_le_mul_of_nonneg_right (coef_pair hS) (by positivity))

theorem src_sub {m : ℕ} (hF : Accurate F m ε ν) (hS : Small ε Θ u) {a a' b b' : ℂ} (na : ‖a‖ ≤ 1) (nb : ‖b‖ ≤ 1)
    (ha : ‖a' - a‖ ≤ 18 * u) (hb : ‖b' - b‖ ≤ 18 * u) (t w : ℂ) :
    ‖F.sub (F.mul a' t) (F.mul b' w) - (a * t - b * w)‖ ≤ 22 * u * (‖t‖ + ‖w‖) := by
  rw [show a * t - b * w = a * t + -b * w by ring]
  exact (sub_amp hF hS.eps na nb (mul_amp hF hS.eps ha na t) (mul_amp hF hS.eps hb nb w)).trans
    (mul_le_mul_of_nonneg_right (coef_pair hS) (by positivity))

theorem sini_near {m : ℕ} (hF : Accurate F m ε ν) (hS : Small ε Θ u) {θ : ℝ} (hθ : |θ| ≤ Θ) :
    ‖F.mul (F.sin (F.rmul (F.par θ) 0.5) : ℂ) (-Complex.I) - (Real.sin (θ / 2) : ℂ) * -Complex.I‖ ≤ 18 * u := by
  refine (mul_near hF hS.eps (β := 0) (sinhalf_near hF hS hθ) (by simp) (norm_sin_le _) (by simp)).trans ?_
  have := hS.eps_le; have := hS.eps; have := hS.le; have := hS.u_nn
  nlinarith

theorem quarter_near {m : ℕ} (hF : Accurate F m ε ν) (hS : Small ε Θ u) (hΘ : Real.pi / 2 ≤ Θ) :
    |F.rmul 0.25 (F.par Real.pi) - Real.pi / 4| ≤ 4 * (Θ * ε) := by
  have hpi := Real.pi_pos
  have h1 := hF.par Real.pi
  have h2 := hF.rmul 0.25 (F.par Real.pi)
  rw [abs_of_pos hpi] at h1
  have he := hS.eps
  have hle := hS.eps_le_one
  have hk : Real.pi / 2 * ε ≤ Θ * ε := mul_le_mul_of_nonneg_right hΘ he
  have h3 : |F.par Real.pi| ≤ 2 * Real.pi := by
    have := abs_add_le Real.pi (F.par Real.pi - Real.pi)
    rw [add_sub_cancel, abs_of_pos hpi] at this
    nlinarith
  have e : F.rmul 0.25 (F.par Real.pi) - Real.pi / 4 =
      (F.rmul 0.25 (F.par Real.pi) - 0.25 * F.par Real.pi) + (F.par Real.pi - Real.pi) * (1 / 4) := by norm_num; ring
  rw [e]
  refine (abs_add_le _ _).trans ?_
  rw [abs_mul, abs_of_pos (by norm_num : (0 : ℝ) < 1 / 4)]
  rw [abs_mul, abs_of_pos (by norm_num : (0 : ℝ) < 0.25)] at h2
  have h4 := mul_le_mul_of_nonneg_left h3 he
  norm_num at h2
  nlinarith

theorem halfsum_near {m : ℕ} (hF : Accurate F m ε ν) (hS : Small ε Θ u) {φ lam x s : ℝ} (hs : |s| ≤ 2 * Θ)
    (h1 : |x - s| ≤ 4 * (Θ * ε) + ε * (2 * (Θ * ε))) : |F.rmul x 0.5 - s / 2| ≤ 4 * (Θ * ε) := by
  refine (half_near hF hS hs h1).trans ?_
  have a1 := hS.nn
  have a2 := hS.eps_le_one
  have a3 := hS.eps
  have a4 : ε * (Θ * ε) ≤ 1 / 88 * (Θ * ε) := mul_le_mul_of_nonneg_right (by linarith) a1
  have a5 : ε * (ε * (Θ * ε)) ≤ 1 / 88 * (1 / 88 * (Θ * ε)) := by
    calc ε * (ε * (Θ * ε)) ≤ ε * (1 / 88 * (Θ * ε)) := mul_le_mul_of_nonneg_left a4 a3
      _ = 1 / 88 * (ε * (Θ * ε)) := by ring
      _ ≤ _ := by linarith
  nlinarith

theorem sum_par {m : ℕ} (hF : Accurate F m ε ν) (hS : Small ε Θ u) {φ lam : ℝ} (hφ : |φ| ≤ Θ) (hl : |lam| ≤ Θ) :
    |F.radd (F.par φ) (F.par lam) - (φ + lam)| ≤ 4 * (Θ * ε) + ε * (2 * (Θ * ε)) := by
  have h1 := par_near hF hS hφ
  have h2 := par_near hF hS hl
  have h3 := hF.radd (F.par φ) (F.par lam)
  have h4 : |F.par φ + F.par lam - (φ + lam)| ≤ 2 * (Θ * ε) := by
    rw [show F.par φ + F.par lam - (φ + lam) = (F.par φ - φ) + (F.par lam - lam) by ring]
    exact (abs_add_le _ _).trans (by linarith)
  have h5 : |F.par φ + F.par lam| ≤ 2 * Θ + 2 * (Θ * ε) := by
    rw [show F.par φ + F.par lam = (F.par φ + F.par lam - (φ + lam)) + (φ + lam) by ring]
    have := abs_add_le φ lam
    exact (abs_add_le _ _).trans (by linarith)
  have h6 := mul_le_mul_of_nonneg_left h5 hS.eps
  rw [show F.radd (F.par φ) (F.par lam) - (φ + lam) =
    (F.radd (F.par φ) (F.par lam) - (F.par φ + F.par lam)) + (F.par φ + F.par lam - (φ + lam)) by ring]
  exact (abs_add_le _ _).trans (by linarith)

theorem diff_par {m : ℕ} (hF : Accurate F m ε ν) (hS : Small ε Θ u) {φ lam : ℝ} (hφ : |φ| ≤ Θ) (hl : |lam| ≤ Θ) :
    |F.rsub (F.par φ) (F.par lam) - (φ - lam)| ≤ 4 * (Θ * ε) + ε * (2 * (Θ * ε)) := by
  have h1 := par_near hF hS hφ
  have h2 := par_near hF hS hl
  have h3 := hF.rsub (F.par φ) (F.par lam)
  have h4 : |F.par φ - F.par lam - (φ - lam)| ≤ 2 * (Θ * ε) := by
    rw [show F.par φ - F.par lam - (φ - lam) = (F.par φ - φ) - (F.par lam - lam) by ring]
    exact (abs_sub _ _).trans (by linarith)
  have h5 : |F.par φ - F.par lam| ≤ 2 * Θ + 2 * (Θ * ε) := by
    rw [show F.par φ - F.par lam = (F.par φ - F.par lam - (φ - lam)) + (φ - lam) by ring]
    have := abs_sub φ lam
    exact (abs_add_le _ _).trans (by linarith)
  have h6 := mul_le_mul_of_nonneg_left h5 hS.eps
  rw [show F.rsub (F.par φ) (F.par lam) - (φ - lam) =
    (F.rsub (F.par φ) (F.par lam) - (F.par φ - F.par lam)) + (F.par φ - F.par lam - (φ - lam)) by ring]
  exact (abs_add_le _ _).trans (by linarith)

theorem u3part_near {m : ℕ} (hF : Accurate F m ε ν) (hS : Small ε Θ u) {a a' b b' : ℂ} (na : ‖a‖ ≤ 1) (nb : ‖b‖ ≤ 1)
    (ha : ‖a' - a‖ ≤ 4 * u) (hb : ‖b' - b‖ ≤ 2 * u) : ‖F.mul a' b' - a * b‖ ≤ 18 * u := by
  refine (mul_near hF hS.eps ha hb na nb).trans ?_
  have h1 := hS.eps_le; have h2 := hS.eps; have h3 := hS.le; have h4 := hS.u_nn
  have : (1 + 4 * u) * (1 + 2 * u) ≤ 2 := by nlinarith
  nlinarith

/-! ## Scaling after a measurement -/

theorem inv_amp {m : ℕ} (hF : Accurate F m ε ν) (hε : 0 ≤ ε) (hε1 : 88 * ε ≤ 1) {s s' : ℝ} (hs : 0 < s)
    (h : |s' - s| ≤ 7 / 4 * ε * s) (t : ℂ) :
    ‖F.mul t (F.div 1 s') - t * ((1 / s : ℝ) : ℂ)‖ ≤ 4 * ε * ‖t * ((1 / s : ℝ) : ℂ)‖ := by
  have hlow : 0.98 * s ≤ s' := by have := (abs_le.1 h).1; nlinarith
  have hs' : 0 < s' := by nlinarith
  have hd := hF.div 1 s' hs'.ne'
  have hinv : s'⁻¹ ≤ 1.0205 * s⁻¹ := by
    rw [inv_eq_one_div, inv_eq_one_div, ← mul_div_assoc, mul_one, div_le_div_iff₀ hs' hs]
    nlinarith
  have n1 : ‖(1 : ℂ) / (s' : ℂ)‖ = s'⁻¹ := by
    rw [norm_div, norm_one, Complex.norm_real, Real.norm_of_nonneg hs'.le, one_div]
  have n2 : ‖((1 / s : ℝ) : ℂ)‖ = s⁻¹ := by
    rw [Complex.norm_real, Real.norm_of_nonneg (by positivity), one_div]
  have hsi : 0 < s⁻¹ := by positivity
  rw [n1] at hd
  have h2 : ‖(1 : ℂ) / (s' : ℂ) - ((1 / s : ℝ) : ℂ)‖ ≤ 7 / 4 * ε * s'⁻¹ := by
    have e : (1 : ℂ) / (s' : ℂ) - ((1 / s : ℝ) : ℂ) = ((1 / s' - 1 / s : ℝ) : ℂ) := by push_cast; ring
    rw [e, Complex.norm_real, Real.norm_eq_abs]
    have e2 : 1 / s' - 1 / s = -((s' - s) * (s'⁻¹ * s⁻¹)) := by field_simp; ring
    rw [e2, abs_neg, abs_mul, abs_of_pos (by positivity : 0 < s'⁻¹ * s⁻¹)]
    calc |s' - s| * (s'⁻¹ * s⁻¹) ≤ 7 / 4 * ε * s * (s'⁻¹ * s⁻¹) := mul_le_mul_of_nonneg_right h (by positivity)
      _ = 7 / 4 * ε * s'⁻¹ := by field_simp
  have h3 : ‖F.div 1 s' - ((1 / s : ℝ) : ℂ)‖ ≤ 2.81 * ε * s⁻¹ := by
    rw [show F.div 1 s' - ((1 / s : ℝ) : ℂ) = (F.div 1 s' - 1 / (s' : ℂ)) + ((1 : ℂ) / (s' : ℂ) - ((1 / s : ℝ) : ℂ)) by ring]
    refine (norm_add_le _ _).trans ?_
    have := mul_le_mul_of_nonneg_left hinv hε
    have := mul_nonneg hε hsi.le
    linarith
  have h4 : ‖F.div 1 s'‖ ≤ 1.1 * s⁻¹ := by
    rw [show F.div 1 s' = (F.div 1 s' - ((1 / s : ℝ) : ℂ)) + ((1 / s : ℝ) : ℂ) by ring]
    refine (norm_add_le _ _).trans ?_
    rw [n2]
    nlinarith
  have h5 := hF.mul t (F.div 1 s')
  rw [norm_mul] at h5
  rw [show F.mul t (F.div 1 s') - t * ((1 / s : ℝ) : ℂ) =
    (F.mul t (F.div 1 s') - t * F.div 1 s') + t * (F.div 1 s' - ((1 / s : ℝ) : ℂ)) by ring, norm_mul, n2]
  refine (norm_add_le _ _).trans ?_
  rw [norm_mul]
  have a1 := mul_le_mul_of_nonneg_left h4 (norm_nonneg t)
  have a2 := mul_le_mul_of_nonneg_left a1 hε
  have a3 := mul_le_mul_of_nonneg_left h3 (norm_nonneg t)
  have a4 : 0 ≤ ε * (‖t‖ * s⁻¹) := by positivity
  linarith

theorem sqrt_rsub {m : ℕ} (hF : Accurate F m ε ν) (hε : 0 ≤ ε) (hε1 : 88 * ε ≤ 1) {p : ℝ} (hp : p < 1) :
    |F.sqrt (F.rsub 1 p) - √(1 - p)| ≤ 7 / 4 * ε * √(1 - p) := by
  have hw : 0 < 1 - p := by linarith
  have h1 := hF.rsub 1 p
  rw [abs_of_pos hw] at h1
  have hw' : 0 < F.rsub 1 p := by have := (abs_le.1 h1).1; nlinarith
  have h2 := hF.sqrt _ hw'.le
  have g0 := Real.sqrt_pos.2 hw
  have r0 := Real.sqrt_pos.2 hw'
  have g2 := Real.mul_self_sqrt hw.le
  have r2 := Real.mul_self_sqrt hw'.le
  generalize √(1 - p) = g at *
  generalize √(F.rsub 1 p) = r at *
  have hr : |r - g| ≤ 0.51 * ε * g := by
    have e : F.rsub 1 p - (1 - p) = (r - g) * (r + g) := by linear_combination -r2 + g2
    rw [e, abs_mul, abs_of_pos (by linarith : 0 < r + g), ← g2] at h1
    have first : |r - g| ≤ ε * g := by
      have : |r - g| * g ≤ ε * g * g := by
        have := mul_nonneg (abs_nonneg (r - g)) r0.le
        linarith
      exact le_of_mul_le_mul_right this g0
    have hrg : 1.98 * g ≤ r + g := by
      have := (abs_le.1 first).1; nlinarith
    have : |r - g| * (1.98 * g) ≤ ε * g * g := by
      have := mul_le_mul_of_nonneg_left hrg (abs_nonneg (r - g))
      linarith
    have : |r - g| * 1.98 ≤ ε * g := by
      refine le_of_mul_le_mul_right ?_ g0
      linarith
    have h0 := mul_nonneg hε g0.le
    linarith
  rw [show F.sqrt (F.rsub 1 p) - g = (F.sqrt (F.rsub 1 p) - r) + (r - g) by ring]
  refine (abs_add_le _ _).trans ?_
  have hr2 : r ≤ 1.1 * g := by have := (abs_le.1 hr).2; nlinarith
  have := mul_le_mul_of_nonneg_left hr2 hε
  have h0 := mul_nonneg hε g0.le
  linarith

/-! ## Sums of squares -/

theorem Rounds.step (hu : 0 ≤ u) {k : ℕ} {x y z : ℝ} (h : Rounds u k x y) (hz : |z - x| ≤ u * |x|) : Rounds u (k + 1) z y := by
  refine ⟨h.1, ?_⟩
  rw [show z - y = (z - x) + (x - y) by ring]
  refine (abs_add_le _ _).trans ?_
  have h2 := mul_le_mul_of_nonneg_left (h.size hu) hu
  have h3 := h.2
  rw [pow_succ]
  linarith

theorem radd_fold {m : ℕ} (hF : Accurate F m ε ν) (hε : 0 ≤ ε) {α : Type} (f g : α → ℝ) (L : List α)
    (h : ∀ x ∈ L, Rounds ε 2 (f x) (g x)) : ∀ (k : ℕ) (a b : ℝ), 2 ≤ k → Rounds ε k a b →
    Rounds ε (k + L.length) ((L.map f).foldl F.radd a) ((L.map g).foldl (· + ·) b) := by
  induction L with
  | nil => intro k a b _ h; simpa using h
  | cons x L ih =>
    intro k a b hk hab
    have h1 := (h x (by simp)).mono hε hk
    have := ih (fun y hy => h y (by simp [hy])) (k + 1) _ _ (by omega) ((hab.add h1).step hε (hF.radd a (f x)))
    rw [show k + (x :: L).length = k + 1 + L.length by simp; omega]
    exact this

theorem flNbP0_rounds {n : ℕ} (hn : n ≤ 64) (hF : Accurate F n ε ν) (hε : 0 ≤ ε) {t : ℕ} (ht : t < n) (q : Arr) :
    |flNbP0 F n t q - nbP0 n t q| ≤ ((1 + ε) ^ (2 ^ n + 1) - 1) * nbP0 n t q := by
  have hN : ((1 : U64) <<< ((BitVec.ofNat 64 n : U64) - 1).toNat).toNat = 2 ^ (n - 1) :=
    loopCount (n := n) (k := 1) (by omega) (by omega) hn
  rw [flNbP0, nbP0]
  simp only [hN]
  have := radd_fold hF hε
    (fun i => F.radd
      (F.rmul (q.getD (nbShifted (((1 : U64) <<< t) - 1) (BitVec.ofNat 64 i)).toNat 0).re
        (q.getD (nbShifted (((1 : U64) <<< t) - 1) (BitVec.ofNat 64 i)).toNat 0).re)
      (F.rmul (q.getD (nbShifted (((1 : U64) <<< t) - 1) (BitVec.ofNat 64 i)).toNat 0).im
        (q.getD (nbShifted (((1 : U64) <<< t) - 1) (BitVec.ofNat 64 i)).toNat 0).im))
    (fun i =>
      (q.getD (nbShifted (((1 : U64) <<< t) - 1) (BitVec.ofNat 64 i)).toNat 0).re *
        (q.getD (nbShifted (((1 : U64) <<< t) - 1) (BitVec.ofNat 64 i)).toNat 0).re +
      (q.getD (nbShifted (((1 : U64) <<< t) - 1) (BitVec.ofNat 64 i)).toNat 0).im *
        (q.getD (nbShifted (((1 : U64) <<< t) - 1) (BitVec.ofNat 64 i)).toNat 0).im)
    (List.range (2 ^ (n - 1))) (fun i _ => by
      have a := (Rounds.refl (u := ε) (mul_self_nonneg
        (q.getD (nbShifted (((1 : U64) <<< t) - 1) (BitVec.ofNat 64 i)).toNat 0).re)).step hε (hF.rmul _ _)
      have b := (Rounds.refl (u := ε) (mul_self_nonneg
        (q.getD (nbShifted (((1 : U64) <<< t) - 1) (BitVec.ofNat 64 i)).toNat 0).im)).step hε (hF.rmul _ _)
      exact (a.add b).step hε (hF.radd _ _)) 2 0 0 le_rfl ((Rounds.refl le_rfl).mono hε (by omega))
  refine (this.mono hε ?_).2
  have : 2 ^ n = 2 * 2 ^ (n - 1) := by rw [← pow_succ', Nat.sub_add_cancel (by omega)]
  have : 1 ≤ 2 ^ (n - 1) := Nat.one_le_two_pow
  simp only [List.length_range]
  omega

/-! ## The kernels -/

theorem cexp_I_quarter : Complex.exp (0.25 * Complex.I * Real.pi) = cis (Real.pi / 4) := by
  rw [cis]; congr 1; push_cast; ring

theorem cexp_I_nquarter : Complex.exp (-0.25 * Complex.I * Real.pi) = cis (-(Real.pi / 4)) := by
  rw [cis]; congr 1; push_cast; ring

theorem cexp_half_I (x : ℝ) : Complex.exp ((x : ℂ) * (0.5 * Complex.I)) = cis (x / 2) := by
  rw [cis]; congr 1; push_cast; ring

theorem norm_cis_le (x : ℝ) : ‖cis x‖ ≤ 1 := by rw [cis, Complex.norm_exp_ofReal_mul_I]

theorem source_body1 {m : ℕ} (hF : Accurate F m ε ν) (hS : Small ε Θ u) (hΘ : Real.pi / 2 ≤ Θ) (k : G1) (b : ℕ → ℕ → List Ins)
    (hb : nbBody1 k = some b) (ha : ∀ x ∈ (Elem.one k 0).angles, |x| ≤ Θ) :
    StoresNear (fun j _ => storeOf? (flNbBody1 F k) j) b (22 * u) := by
  have hu := hS.u_nn
  have hu' : 0 ≤ 22 * u := by linarith
  have h18 : ∀ x : ℂ, ‖x - x‖ ≤ 18 * u := fun x => by simp; linarith
  have w2 : ∀ {x : ℝ}, x ≤ 2 * u → x ≤ 18 * u := fun h => by linarith
  cases k <;> simp only [nbBody1, Option.some.injEq, reduceCtorEq] at hb <;> subst hb <;>
    simp only [Elem.angles, List.mem_cons, List.not_mem_nil, or_false, forall_eq, forall_eq_or_imp] at ha <;>
    simp only [flNbBody1, storeOf?]
  case x => exact source_X _ hu'
  case y =>
    refine source_Y (fun t => ?_) (fun t => ?_) hu'
    · exact src_mul hF hS (a := -1 * Complex.I) (by simp) (by simp; linarith) t
    · exact src_mul hF hS (by simp) (h18 _) t
  case z => exact source_diag (src_mul hF hS (by simp) (h18 _)) hu'
  case h =>
    refine source_H (fun t u => ?_) (fun t u => ?_)
    · rw [mul_comm (t + u)]; exact h_amp hF hS (norm_add_le _ _) (hF.add _ _)
    · rw [mul_comm (t - u)]; exact h_amp hF hS (norm_sub_le _ _) (hF.sub _ _)
  case t =>
    rw [cexp_I_quarter]
    refine source_diag (src_mul hF hS (norm_cis_le _) ((cexp_near hF _ _).trans ?_)) hu'
    have := quarter_near hF hS hΘ; have := hS.eq; have := hS.nn; have := hS.eps; linarith
  case tdg =>
    rw [cexp_I_nquarter]
    refine source_diag (src_mul hF hS (norm_cis_le _) ((cexpNeg_near hF _ _).trans ?_)) hu'
    have := quarter_near hF hS hΘ; have := hS.eq; have := hS.nn; have := hS.eps; linarith
  case s => exact source_diag (src_mul hF hS (by simp) (h18 _)) hu'
  case sdg => exact source_diag (src_mul hF hS (by simp) (by simp; linarith)) hu'
  case rx θ =>
    have hc := w2 (coshalf_near hF hS ha)
    have hs := sini_near hF hS ha
    rw [half, neg_one_mul]
    have ns : ‖(Real.sin (θ / 2) : ℂ) * -Complex.I‖ ≤ 1 := by simpa using norm_sin_le (θ / 2)
    exact source_rot (src_add hF hS (norm_cos_le _) ns hc hs) (src_add hF hS ns (norm_cos_le _) hs hc)
  case ry θ =>
    have hc := w2 (coshalf_near hF hS ha)
    have hs := w2 (sinhalf_near hF hS ha)
    rw [half]
    exact source_RY (src_sub hF hS (norm_cos_le _) (norm_sin_le _) hc hs) (src_add hF hS (norm_sin_le _) (norm_cos_le _) hs hc)
  case rz θ =>
    rw [conj_exp_I_mul, exp_I_mul, half]
    exact source_RZ (src_mul hF hS (norm_cis_le _) (w2 (cexpNeghalf_near hF hS ha)))
      (src_mul hF hS (norm_cis_le _) (w2 (cexphalf_near hF hS ha))) hu'
  case u1 θ =>
    rw [conj_exp_I_mul, exp_I_mul, half]
    exact source_RZ (src_mul hF hS (norm_cis_le _) (w2 (cexpNeghalf_near hF hS ha)))
      (src_mul hF hS (norm_cis_le _) (w2 (cexphalf_near hF hS ha))) hu'
  case phase θ =>
    rw [exp_I_mul]
    exact source_diag (src_mul hF hS (norm_cis_le _) (w2 (cexppar_near hF hS ha))) hu'
  case u3 θ φ lam =>
    obtain ⟨hθ, hφ, hl⟩ := ha
    have hc := coshalf_near hF hS hθ
    have hs := sinhalf_near hF hS hθ
    have hadd := halfsum_near hF hS (φ := φ) (lam := lam) ((abs_add_le φ lam).trans (by linarith)) (sum_par hF hS hφ hl)
    have hsub := halfsum_near hF hS (φ := φ) (lam := lam) ((abs_sub φ lam).trans (by linarith)) (diff_par hF hS hφ hl)
    have e1 : ∀ x y : ℝ, |x - y| ≤ 4 * (Θ * ε) → ‖flCexp F x - cis y‖ ≤ 4 * u := fun x y h =>
      (cexp_near hF _ _).trans (by have := hS.eq; have := hS.eps; linarith)
    have e2 : ∀ x y : ℝ, |x - y| ≤ 4 * (Θ * ε) → ‖flCexpNeg F x - cis (-y)‖ ≤ 4 * u := fun x y h =>
      (cexpNeg_near hF _ _).trans (by have := hS.eq; have := hS.eps; linarith)
    have p1 := u3part_near hF hS (norm_cis_le _) (norm_cos_le _) (e2 _ _ hadd) hc
    have p2 := u3part_near hF hS (a := -cis (-((φ - lam) / 2))) (a' := -(flCexpNeg F (F.rmul (F.rsub (F.par φ) (F.par lam)) 0.5)))
      (by rw [norm_neg]; exact norm_cis_le _) (norm_sin_le _)
      (by rw [← neg_sub', norm_neg]; exact e2 _ _ hsub) hs
    have p3 := u3part_near hF hS (norm_cis_le _) (norm_sin_le _) (e1 _ _ hsub) hs
    have p4 := u3part_near hF hS (norm_cis_le _) (norm_cos_le _) (e1 _ _ hadd) hc
    have q1 : ‖cis (-((φ + lam) / 2)) * (Real.cos (θ / 2) : ℂ)‖ ≤ 1 := by
      rw [norm_mul]; exact mul_le_one₀ (norm_cis_le _) (norm_nonneg _) (norm_cos_le _)
    have q2 : ‖-cis (-((φ - lam) / 2)) * (Real.sin (θ / 2) : ℂ)‖ ≤ 1 := by
      rw [norm_mul, norm_neg]; exact mul_le_one₀ (norm_cis_le _) (norm_nonneg _) (norm_sin_le _)
    have q3 : ‖cis ((φ - lam) / 2) * (Real.sin (θ / 2) : ℂ)‖ ≤ 1 := by
      rw [norm_mul]; exact mul_le_one₀ (norm_cis_le _) (norm_nonneg _) (norm_sin_le _)
    have q4 : ‖cis ((φ + lam) / 2) * (Real.cos (θ / 2) : ℂ)‖ ≤ 1 := by
      rw [norm_mul]; exact mul_le_one₀ (norm_cis_le _) (norm_nonneg _) (norm_cos_le _)
    have k1 : Complex.exp ((φ + lam : ℂ) * (0.5 * Complex.I)) = cis ((φ + lam) / 2) := by
      rw [← cexp_half_I]; push_cast; rfl
    have k2 : Complex.exp ((φ - lam : ℂ) * (0.5 * Complex.I)) = cis ((φ - lam) / 2) := by
      rw [← cexp_half_I]; push_cast; rfl
    have kc : ∀ x, (starRingEnd ℂ) (cis x) = cis (-x) := fun x => by rw [← conj_exp_I_mul, exp_I_mul]
    rw [k1, k2, kc, kc, half]
    exact source_rot (src_add hF hS q1 q2 p1 p2) (src_add hF hS q3 q4 p3 p4)

theorem source_body2 {m : ℕ} (hF : Accurate F m ε ν) (hS : Small ε Θ u) (hΘ : Real.pi / 2 ≤ Θ) (k : G2) (b : ℕ → ℕ → List Ins)
    (hb : nbBody2 k = some b) (ha : ∀ x ∈ (Elem.two k 0 1).angles, |x| ≤ Θ) :
    StoresNear (fun j _ => storeOf? (flNbBody2 F k) j) b (22 * u) := by
  cases k <;> simp only [nbBody2, reduceCtorEq] at hb
  case cx => exact source_body1 hF hS hΘ .x b hb (by simp [Elem.angles])
  case cz => exact source_body1 hF hS hΘ .z b hb (by simp [Elem.angles])
  case crx θ => exact source_body1 hF hS hΘ (.rx θ) b hb ha
  case cry θ => exact source_body1 hF hS hΘ (.ry θ) b hb ha
  case crz θ => exact source_body1 hF hS hΘ (.rz θ) b hb ha
  case cphase θ => exact source_body1 hF hS hΘ (.phase θ) b hb ha

theorem source_body3 {m : ℕ} (hF : Accurate F m ε ν) (hS : Small ε Θ u) (hΘ : Real.pi / 2 ≤ Θ) (k : G3) (b : ℕ → ℕ → List Ins)
    (hb : nbBody3 k = some b) : StoresNear (fun j _ => storeOf? (flNbBody3 F k) j) b (22 * u) := by
  cases k <;> simp only [nbBody3, reduceCtorEq] at hb
  case ccx => exact source_body1 hF hS hΘ .x b hb (by simp [Elem.angles])
  case ccz => exact source_body1 hF hS hΘ .z b hb (by simp [Elem.angles])

theorem source_accurate {n : ℕ} (hn : n ≤ 64) (hF : Accurate F n ε ν) (hS : Small ε Θ u) (hΘ : Real.pi / 2 ≤ Θ) :
    NbAccurate (NbFloat.source F) n ε ((1 + ε) ^ (2 ^ n + 1) - 1) Θ := by
  have hu : 22 * (1 + Θ) * ε = 22 * u := by have := hS.eq; linear_combination 22 * this
  have he := hS.eps
  have h88 := hS.eps_le_one
  have hsq : ∀ p : ℝ, 0 < p → |F.sqrt p - √p| ≤ 7 / 4 * ε * √p := fun p hp =>
    (hF.sqrt p hp.le).trans (by have := Real.sqrt_nonneg p; nlinarith)
  refine ⟨fun k b hb ha => ?_, fun k b hb ha => ?_, fun k b hb => ?_, fun p hp => ?_, fun p hp => ?_, fun p hp => ?_,
    ?_, fun t ht q _ => flNbP0_rounds hn hF he ht q⟩
  · rw [hu]; exact source_body1 hF hS hΘ k b hb ha
  · rw [hu]; exact source_body2 hF hS hΘ k b hb ha
  · rw [hu]; exact source_body3 hF hS hΘ k b hb
  · exact source_reduce0 (inv_amp hF he h88 (Real.sqrt_pos.2 hp) (hsq p hp))
  · exact source_reduce1 (inv_amp hF he h88 (Real.sqrt_pos.2 (by linarith)) (sqrt_rsub hF he h88 hp))
  · exact source_reset1 (inv_amp hF he h88 (Real.sqrt_pos.2 (by linarith)) (sqrt_rsub hF he h88 hp))
  · have := one_le_pow₀ (n := 2 ^ n + 1) (by linarith : (1 : ℝ) ≤ 1 + ε)
    linarith

end

end Spec
