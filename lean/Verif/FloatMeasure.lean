import Verif.FloatLemmas

/-! Lemmas: rounding errors in measurements. -/

set_option linter.unusedSimpArgs false
set_option linter.unusedVariables false

namespace Spec

open Blueqat

noncomputable section

variable {F : FloatOps} {ε ν Θ : ℝ}

/-- The part of a state where qubit `t` has the value `b`. -/
def part (t : ℕ) (b : Bool) (ψ : Vec) : Vec := fun i => if i.testBit t = b then ψ i else 0

theorem normSqN_part (n t : ℕ) (b : Bool) (ψ : Vec) : normSqN n (part t b ψ) = prob n t b ψ := by
  rw [normSqN, prob, Finset.sum_filter]
  refine Finset.sum_congr rfl fun i _ => ?_
  simp only [part]; split_ifs <;> simp

theorem gap_part (n t : ℕ) (b : Bool) (ψ χ : Vec) : gap n (part t b ψ) (part t b χ) ≤ gap n ψ χ := by
  refine Real.sqrt_le_sqrt (Finset.sum_le_sum fun i _ => ?_)
  simp only [part]
  split_ifs
  · exact le_refl _
  · simp

theorem norm_gap (n : ℕ) (ψ χ : Vec) : |Real.sqrt (normSqN n ψ) - Real.sqrt (normSqN n χ)| ≤ gap n ψ χ := by
  rw [gap_eq, ← norm_toE, ← norm_toE]; exact abs_norm_sub_norm_le _ _

theorem gap_nonneg (n : ℕ) (ψ χ : Vec) : 0 ≤ gap n ψ χ := Real.sqrt_nonneg _

theorem norm_le_gap {n : ℕ} {ψ χ : Vec} {B : ℝ} (h : gap n ψ χ ≤ B) (h1 : normSqN n χ = 1) :
    Real.sqrt (normSqN n ψ) ≤ 1 + B := by
  have := (abs_le.1 ((norm_gap n ψ χ).trans h)).2
  rw [h1, Real.sqrt_one] at this; linarith

theorem prob_le_one {n t : ℕ} {b : Bool} {χ : Vec} (h1 : normSqN n χ = 1) : prob n t b χ ≤ 1 := by
  rw [← h1, normSqN, prob]
  exact Finset.sum_le_sum_of_subset_of_nonneg (Finset.filter_subset _ _) fun _ _ _ => by positivity

theorem sqrt_prob_near {n t : ℕ} {b : Bool} {φ χ : Vec} {B : ℝ} (h : gap n φ χ ≤ B) :
    |Real.sqrt (prob n t b φ) - Real.sqrt (prob n t b χ)| ≤ B := by
  rw [← normSqN_part, ← normSqN_part]
  exact (norm_gap n _ _).trans ((gap_part n t b φ χ).trans h)

theorem prob_near {n t : ℕ} {b : Bool} {φ χ : Vec} {B : ℝ} (h : gap n φ χ ≤ B) (h1 : normSqN n χ = 1) :
    |prob n t b φ - prob n t b χ| ≤ (1 + B) ^ 2 - 1 ∧ prob n t b φ ≤ (1 + B) ^ 2 := by
  have hB := (gap_nonneg n φ χ).trans h
  have e1 := Real.mul_self_sqrt (prob_nonneg n t b φ)
  have e2 := Real.mul_self_sqrt (prob_nonneg n t b χ)
  have n1 := Real.sqrt_nonneg (prob n t b φ)
  have n2 := Real.sqrt_nonneg (prob n t b χ)
  have l2 : Real.sqrt (prob n t b χ) ≤ 1 := Real.sqrt_le_one.2 (prob_le_one h1)
  have h2 := abs_le.1 (sqrt_prob_near (t := t) (b := b) h)
  generalize Real.sqrt (prob n t b φ) = a at *
  generalize Real.sqrt (prob n t b χ) = c at *
  rw [← e1, ← e2]
  have ha : a ≤ 1 + B := by linarith [h2.2]
  refine ⟨abs_le.2 ⟨?_, ?_⟩, by nlinarith⟩
  · have : c ≤ a + B := by linarith [h2.1]
    nlinarith
  · have : a ≤ c + B := by linarith [h2.2]
    nlinarith

theorem normPow2_sum (n t : ℕ) (b : Bool) (φ : Vec) :
    ((sel (vec n φ) (maskOf n fun i => i.testBit t == b)).map fun z => ‖z‖ ^ 2).sum = prob n t b φ := by
  rw [sel_vec, List.map_map]
  have h := list_sum_filter (2 ^ n) (fun i => i.testBit t == b) (fun i => ‖φ i‖ ^ 2)
  rw [show ((fun z : ℂ => ‖z‖ ^ 2) ∘ φ) = fun i => ‖φ i‖ ^ 2 from rfl, h, prob]
  exact Finset.sum_congr (Finset.filter_congr fun i _ => by simp) fun _ _ => rfl

theorem pzero_near {n : ℕ} (hF : Accurate F n ε ν) (hν : 0 ≤ ν) {t : ℕ} {φ χ : Vec} {B : ℝ} (h : gap n φ χ ≤ B)
    (h1 : normSqN n χ = 1) :
    |F.normPow2 (sel (vec n φ) (maskOf n fun i => !i.testBit t)) - prob n t false χ| ≤ (1 + ν) * (1 + B) ^ 2 - 1 := by
  have e : (fun i : ℕ => !i.testBit t) = fun i => i.testBit t == false := by funext i; simp
  have h2 := hF.normPow2 (sel (vec n φ) (maskOf n fun i => i.testBit t == false)) (by
    rw [sel_vec, List.length_map]
    exact (List.length_filter_le _ _).trans (by simp))
  rw [normPow2_sum] at h2
  obtain ⟨h3, h4⟩ := prob_near (t := t) (b := false) h h1
  rw [e]
  have e2 : ∀ x : ℝ, x - prob n t false χ = (x - prob n t false φ) + (prob n t false φ - prob n t false χ) := fun x => by
    ring
  rw [e2]
  refine (abs_add_le _ _).trans ((add_le_add h2 h3).trans ?_)
  have := mul_le_mul_of_nonneg_left h4 hν
  linarith

theorem probErr_ge (hε : 0 ≤ ε) (hν : 0 ≤ ν) {B : ℝ} (hB : 0 ≤ B) :
    (1 + ν) * (1 + B) ^ 2 - 1 ≤ probErr ε ν B ∧ 2 * B ≤ probErr ε ν B ∧ ε ≤ probErr ε ν B ∧ 0 ≤ probErr ε ν B := by
  rw [probErr]
  have h1 : 1 ≤ (1 + B) ^ 2 := by nlinarith
  have h2 : (1 + B) ^ 2 ≤ (1 + ν) * (1 + B) ^ 2 := by nlinarith
  have h3 : 0 ≤ ε * ((1 + ν) * (1 + B) ^ 2) := by positivity
  refine ⟨by linarith, by nlinarith, ?_, by linarith⟩
  nlinarith

theorem pone_near {m : ℕ} (hF : Accurate F m ε ν) (hε : 0 ≤ ε) {x p q η : ℝ} (hx : |x - p| ≤ η) (hpq : p + q = 1) (hq : 0 ≤ q)
    (hp : 0 ≤ p) : |F.rsub 1 x - q| ≤ (1 + ε) * (1 + η) - 1 := by
  have h1 := hF.rsub 1 x
  have h2 : |1 - x - q| ≤ η := by
    rw [show 1 - x - q = -(x - p) by linarith, abs_neg]; exact hx
  have h3 : |1 - x| ≤ 1 + η := by
    have := abs_add_le q (1 - x - q)
    rw [add_sub_cancel, abs_of_nonneg hq] at this; linarith
  have e : F.rsub 1 x - q = (F.rsub 1 x - (1 - x)) + (1 - x - q) := by ring
  rw [e]
  have := mul_le_mul_of_nonneg_left h3 hε
  refine (abs_add_le _ _).trans ?_
  linarith

theorem gap_scale (n : ℕ) (c d : ℂ) (ψ : Vec) :
    gap n (fun i => ψ i * c) (fun i => ψ i * d) = ‖c - d‖ * Real.sqrt (normSqN n ψ) := by
  rw [gap, ← Real.sqrt_sq (norm_nonneg (c - d)), ← Real.sqrt_mul (by positivity)]
  congr 1
  rw [normSqN, normSqN, Finset.mul_sum]
  refine Finset.sum_congr rfl fun i _ => ?_
  rw [← mul_sub, norm_mul]; ring

theorem gap_mulc (n : ℕ) (c : ℂ) (ψ χ : Vec) :
    gap n (fun i => ψ i * c) (fun i => χ i * c) = ‖c‖ * gap n ψ χ := by
  rw [gap, gap]
  conv_rhs => rw [← Real.sqrt_sq (norm_nonneg c), ← Real.sqrt_mul (by positivity)]
  congr 1
  rw [normSqN, normSqN, Finset.mul_sum]
  refine Finset.sum_congr rfl fun i _ => ?_
  rw [← sub_mul, norm_mul]; ring

theorem gap_pointwise {n : ℕ} {φ χ ψ : Vec} {κ : ℝ} (hκ : 0 ≤ κ) (h : ∀ i, ‖φ i - χ i‖ ≤ κ * ‖ψ i‖) :
    gap n φ χ ≤ κ * Real.sqrt (normSqN n ψ) := by
  conv_rhs => rw [← Real.sqrt_sq hκ, ← Real.sqrt_mul (by positivity)]
  refine Real.sqrt_le_sqrt ?_
  rw [normSqN, normSqN, Finset.mul_sum]
  refine Finset.sum_le_sum fun i _ => ?_
  rw [← mul_pow]
  exact pow_le_pow_left₀ (norm_nonneg _) (h i) 2

theorem collapse_arith {ε g B E δ : ℝ} (hg0 : 0 ≤ g) (hg1 : g ≤ 1) (hε : 0 ≤ ε) (hε8 : 8 * ε ≤ 1) (hB : 0 ≤ B)
    (hBE : 2 * B ≤ E) (hεE : ε ≤ E) (hδ : g * δ ≤ E + ε * (g * g + E)) : g * (ε * (g + B) + B + δ) ≤ 4 * E := by
  have hgg : g * g ≤ 1 := mul_le_one₀ hg1 hg0 hg1
  have a1 : ε * (g * g) ≤ ε * 1 := mul_le_mul_of_nonneg_left hgg hε
  have a2 : g * B ≤ 1 * B := mul_le_mul_of_nonneg_right hg1 hB
  have a3 : ε * (g * B) ≤ ε * (1 * B) := mul_le_mul_of_nonneg_left a2 hε
  have a4 : ε * B ≤ 1 / 8 * B := mul_le_mul_of_nonneg_right (by linarith) hB
  have a5 : ε * E ≤ 1 / 8 * E := mul_le_mul_of_nonneg_right (by linarith) (by linarith)
  have e : g * (ε * (g + B) + B + δ) = ε * (g * g) + ε * (g * B) + g * B + g * δ := by ring
  rw [e]
  linarith

theorem sqrt_arith {q g E : ℝ} (hg0 : 0 < g) (hq0 : 0 < q) (hq : |q - g * g| ≤ E) : g * |Real.sqrt q - g| ≤ E := by
  have hr2 := Real.mul_self_sqrt hq0.le
  have hr0 := Real.sqrt_pos.2 hq0
  have e : q - g * g = (Real.sqrt q - g) * (Real.sqrt q + g) := by linear_combination -hr2
  rw [e, abs_mul, abs_of_pos (show 0 < Real.sqrt q + g by linarith)] at hq
  have := mul_nonneg (abs_nonneg (Real.sqrt q - g)) hr0.le
  linarith

/-- Dividing the measured part by the rounded root of its rounded probability. -/
theorem collapse_near {n : ℕ} (hF : Accurate F n ε ν) (hε : 0 ≤ ε) (hε8 : 8 * ε ≤ 1) {t : ℕ} {b : Bool} {φ χ : Vec} {B E q : ℝ}
    (h : gap n φ χ ≤ B) (h1 : normSqN n χ = 1) (hq : |q - prob n t b χ| ≤ E) (hE : 4 * E ≤ prob n t b χ)
    (hp : 0 < prob n t b χ) (hBE : 2 * B ≤ E) (hεE : ε ≤ E) :
    gap n (fun i => F.div (part t b φ i) (F.sqrt q)) (collapse n t b χ) ≤ 8 * E / prob n t b χ := by
  have hB := (gap_nonneg n φ χ).trans h
  have hE0 : 0 ≤ E := hε.trans hεE
  have hg2 := Real.mul_self_sqrt hp.le
  have hg0 := Real.sqrt_pos.2 hp
  have hg1 : Real.sqrt (prob n t b χ) ≤ 1 := Real.sqrt_le_one.2 (prob_le_one h1)
  have hφn : Real.sqrt (normSqN n (part t b φ)) ≤ Real.sqrt (prob n t b χ) + B := by
    rw [normSqN_part]
    have := (abs_le.1 (sqrt_prob_near (t := t) (b := b) h)).2; linarith
  have hχn : Real.sqrt (normSqN n (part t b χ)) = Real.sqrt (prob n t b χ) := by rw [normSqN_part]
  have hcol : collapse n t b χ = fun i => part t b χ i * ((Real.sqrt (prob n t b χ) : ℝ) : ℂ)⁻¹ := by
    funext i; simp only [collapse, part]; split_ifs <;> simp [div_eq_mul_inv]
  rw [hcol]
  generalize Real.sqrt (prob n t b χ) = g at *
  rw [← hg2] at hq hE ⊢
  have hq0 : 0 < q := by have := (abs_le.1 hq).1; nlinarith
  have hr2 := Real.mul_self_sqrt hq0.le
  have hr0 := Real.sqrt_pos.2 hq0
  have hr : g * |Real.sqrt q - g| ≤ E := sqrt_arith hg0 hq0 hq
  have hd := hF.sqrt q hq0.le
  have hδ : g * |F.sqrt q - g| ≤ E + ε * (g * g + E) := by
    have e : F.sqrt q - g = (F.sqrt q - Real.sqrt q) + (Real.sqrt q - g) := by ring
    have h2 : |F.sqrt q - g| ≤ ε * Real.sqrt q + |Real.sqrt q - g| := by
      rw [e]; exact (abs_add_le _ _).trans (by linarith)
    have h3 : g * Real.sqrt q ≤ g * g + E := by
      have := le_abs_self (Real.sqrt q - g)
      nlinarith
    have h4 := mul_le_mul_of_nonneg_left h2 hg0.le
    have h5 := mul_le_mul_of_nonneg_left h3 hε
    nlinarith
  have hd2 : g ≤ 2 * F.sqrt q := by
    have h2 := neg_abs_le (F.sqrt q - g)
    have h3 : ε * (g * g + E) ≤ (g * g + E) / 8 := by nlinarith
    have h4 : g * |F.sqrt q - g| ≤ g * (g / 2) := by nlinarith
    have h5 := le_of_mul_le_mul_left h4 hg0
    linarith
  have hd0 : 0 < F.sqrt q := by linarith
  generalize F.sqrt q = d at *
  have hnd : ‖((d : ℝ) : ℂ)⁻¹‖ = d⁻¹ := by
    rw [norm_inv, Complex.norm_real, Real.norm_of_nonneg hd0.le]
  have t1 : gap n (fun i => F.div (part t b φ i) d) (fun i => part t b φ i * (d : ℂ)⁻¹) ≤ ε * d⁻¹ * (g + B) := by
    refine (gap_pointwise (ψ := part t b φ) (κ := ε * d⁻¹) (by positivity) fun i => ?_).trans
      (mul_le_mul_of_nonneg_left hφn (by positivity))
    have := hF.div (part t b φ i) d hd0.ne'
    rw [div_eq_mul_inv, norm_mul, hnd] at this
    linarith
  have t2 : gap n (fun i => part t b φ i * (d : ℂ)⁻¹) (fun i => part t b χ i * (d : ℂ)⁻¹) ≤ d⁻¹ * B := by
    rw [gap_mulc, hnd]
    exact mul_le_mul_of_nonneg_left ((gap_part n t b φ χ).trans h) (by positivity)
  have t3 : gap n (fun i => part t b χ i * (d : ℂ)⁻¹) (fun i => part t b χ i * (g : ℂ)⁻¹) ≤ d⁻¹ * |d - g| := by
    rw [gap_scale, hχn, ← Complex.ofReal_inv, ← Complex.ofReal_inv, abs_ofReal_sub]
    have e : d⁻¹ - g⁻¹ = -(d⁻¹ * g⁻¹ * (d - g)) := by field_simp; ring
    rw [e, abs_neg, abs_mul, abs_of_pos (by positivity : 0 < d⁻¹ * g⁻¹)]
    refine le_of_eq ?_
    field_simp
  have tt := ((gap_triangle n _ _ _).trans (add_le_add t1 ((gap_triangle n _ _ _).trans (add_le_add t2 t3))))
  refine tt.trans ?_
  have e : ε * d⁻¹ * (g + B) + (d⁻¹ * B + d⁻¹ * |d - g|) = (ε * (g + B) + B + |d - g|) / d := by
    field_simp; ring
  rw [e, div_le_div_iff₀ hd0 (by positivity)]
  have k1 : g * (ε * (g + B) + B + |d - g|) ≤ 4 * E := collapse_arith hg0.le hg1 hε hε8 hB hBE hεE hδ
  have k2 : 0 ≤ ε * (g + B) + B + |d - g| := by positivity
  calc (ε * (g + B) + B + |d - g|) * (g * g) = g * (g * (ε * (g + B) + B + |d - g|)) := by ring
    _ ≤ g * (4 * E) := mul_le_mul_of_nonneg_left k1 hg0.le
    _ ≤ (2 * d) * (4 * E) := mul_le_mul_of_nonneg_right hd2 (by linarith)
    _ = 8 * E * d := by ring

end

end Spec
