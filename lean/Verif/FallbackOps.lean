import Verif.FallbackLemmas

/-!
# Two- and three-qubit operator identities behind the fallbacks
-/

set_option linter.unusedSimpArgs false
set_option linter.unusedVariables false

namespace Spec

open Complex
open Blueqat (G1 G2 G3 Gate)

noncomputable section

variable {c t : ℕ}

/-- closes the side conditions of `mux_mux'` -/
macro "muxinv" h:term : tactic =>
  `(tactic| (intro i; simp only [testBit_flipBit_ne $h]))

theorem fb_cy (h : c ≠ t) (ψ : Vec) :
    app mS t (ctrl c (app mX t) (app mSdg t ψ)) = ctrl c (app mY t) ψ := by
  simp only [ctrl_app, app_eq_mux]
  rw [mux_mux', mux_mux']
  · apply mux_congr; intro i
    by_cases hc : i.testBit c
    · simp only [hc, if_true]; rw [mul_assoc, mS_X_mSdg]
    · simp [hc, mI_eq_one, mS_mSdg]
  · muxinv h.symm
  · muxinv h.symm

theorem fb_ch (h : c ≠ t) (ψ : Vec) :
    app (mRY (-Real.pi / 4)) t (ctrl c (app mX t) (app (mRY (Real.pi / 4)) t ψ)) = ctrl c (app mH t) ψ := by
  simp only [ctrl_app, app_eq_mux]
  rw [mux_mux', mux_mux']
  · apply mux_congr; intro i
    by_cases hc : i.testBit c
    · simp only [hc, if_true]; rw [mul_assoc, mRY_X_mRY]
    · simp [hc, mI_eq_one, mRY_mul, ← add_div, mRY_zero]
  · muxinv h.symm
  · muxinv h.symm

theorem fb_crx (h : c ≠ t) (θ : ℝ) (ψ : Vec) :
    ctrl c (app mZ t) (app (mRX (-θ / 2)) t (ctrl c (app mZ t) (app (mRX (θ / 2)) t ψ))) =
      ctrl c (app (mRX θ) t) ψ := by
  simp only [ctrl_app, app_eq_mux]
  rw [mux_mux', mux_mux', mux_mux']
  · apply mux_congr; intro i
    by_cases hc : i.testBit c
    · simp only [hc, if_true]
      rw [mul_assoc mZ, mZ_mRX_mZ, mRX_mul]; congr 1; ring
    · simp [hc, mI_eq_one, mRX_mul, ← add_div, mRX_zero]
  all_goals muxinv h.symm

theorem fb_cry (h : c ≠ t) (θ : ℝ) (ψ : Vec) :
    ctrl c (app mX t) (app (mRY (-θ / 2)) t (ctrl c (app mX t) (app (mRY (θ / 2)) t ψ))) =
      ctrl c (app (mRY θ) t) ψ := by
  simp only [ctrl_app, app_eq_mux]
  rw [mux_mux', mux_mux', mux_mux']
  · apply mux_congr; intro i
    by_cases hc : i.testBit c
    · simp only [hc, if_true]
      rw [mul_assoc mX, mX_mRY_mX, mRY_mul]; congr 1; ring
    · simp [hc, mI_eq_one, mRY_mul, ← add_div, mRY_zero]
  all_goals muxinv h.symm

theorem fb_crz (h : c ≠ t) (θ : ℝ) (ψ : Vec) :
    ctrl c (app mX t) (app (mRZ (-θ / 2)) t (ctrl c (app mX t) (app (mRZ (θ / 2)) t ψ))) =
      ctrl c (app (mRZ θ) t) ψ := by
  simp only [ctrl_app, app_eq_mux]
  rw [mux_mux', mux_mux', mux_mux']
  · apply mux_congr; intro i
    by_cases hc : i.testBit c
    · simp only [hc, if_true]
      rw [mul_assoc mX, mX_mRZ_mX, mRZ_mul]; congr 1; ring
    · simp [hc, mI_eq_one, mRZ_mul, ← add_div, mRZ_zero]
  all_goals muxinv h.symm

theorem scal_mRZ (θ : ℝ) : M2.scal (cis (θ / 2)) * mRZ θ = mPhase θ := by
  ext <;> simp [M2.scal, mRZ, mPhase, M2.mul_def, ← cis_add, cis_zero]

theorem scal_one : M2.scal 1 = 1 := rfl

theorem fb_cphase (h : c ≠ t) (θ : ℝ) (ψ : Vec) :
    app (mPhase (θ / 2)) c (ctrl c (app (mRZ θ) t) ψ) = ctrl c (app (mPhase θ) t) ψ := by
  rw [mPhase, diag_eq_mux c t]
  simp only [ctrl_app]
  rw [mux_mux']
  · apply mux_congr; intro i
    by_cases hc : i.testBit c
    · simp only [hc, if_true]; rw [scal_mRZ]
    · simp [hc, mI_eq_one, scal_one]
  all_goals muxinv h.symm

theorem fb_cu3 (h : c ≠ t) (θ φ lam : ℝ) (ψ : Vec) :
    app (mU3 (θ / 2) φ 0) t (ctrl c (app mX t) (app (mU3 (-θ / 2) 0 (-(φ + lam) / 2)) t
      (ctrl c (app mX t) (app (mRZ ((lam - φ) / 2)) t ψ)))) = ctrl c (app (mU3 θ φ lam) t) ψ := by
  simp only [ctrl_app, app_eq_mux]
  rw [mux_mux', mux_mux', mux_mux', mux_mux']
  · apply mux_congr; intro i
    have hX : ∀ M : M2, mX * (mX * M) = M := fun M => by rw [← mul_assoc, mX_mX, one_mul]
    by_cases hc : i.testBit c
    · simp only [hc, if_true]
      simp only [mU3_eq, mRZ_zero, mul_one, one_mul, mul_assoc]
      have e1 : ∀ M, mX * (mRY (-θ / 2) * M) = mRY (θ / 2) * (mX * M) := by
        intro M
        have := mX_mRY_mX (-θ / 2)
        have e : -(-θ / 2) = θ / 2 := by ring
        rw [e] at this
        rw [← this]; simp only [mul_assoc, hX]
      have e2 : ∀ M, mX * (mRZ (-(φ + lam) / 2) * M) = mRZ ((φ + lam) / 2) * (mX * M) := by
        intro M
        have := mX_mRZ_mX (-(φ + lam) / 2)
        have e : -(-(φ + lam) / 2) = (φ + lam) / 2 := by ring
        rw [e] at this
        rw [← this]; simp only [mul_assoc, hX]
      rw [e1, e2, hX, mRZ_mul, ← mul_assoc (mRY (θ / 2)), mRY_mul]
      congr 3 <;> ring
    · simp only [hc, mI_eq_one, mul_one, one_mul, mU3_eq, mRZ_zero, mul_assoc]
      simp only [Bool.false_eq_true, if_false, one_mul, mul_one]
      rw [← mul_assoc (mRY (θ / 2)), mRY_mul]
      have : θ / 2 + -θ / 2 = 0 := by ring
      rw [this, mRY_zero, one_mul, mRZ_mul, mRZ_mul]
      have : φ + (-(φ + lam) / 2 + (lam - φ) / 2) = 0 := by ring
      rw [this, mRZ_zero]
  all_goals muxinv h.symm

theorem fb_cu1 (h : c ≠ t) (lam : ℝ) (ψ : Vec) :
    app (mRZ (lam / 2)) t (ctrl c (app mX t) (app (mRZ (-lam / 2)) t
      (ctrl c (app mX t) (app (mRZ (lam / 2)) c ψ)))) =
      fun i => cis (-(lam / 4)) * ctrl c (app (mPhase lam) t) ψ i := by
  have hr : (fun i => cis (-(lam / 4)) * ctrl c (app (mPhase lam) t) ψ i) =
      mux t (fun i => M2.scal (cis (-(lam / 4))) * (if i.testBit c then mPhase lam else mI)) ψ := by
    rw [ctrl_app]
    funext i
    simp only [mux, M2.mul_def, M2.scal]
    by_cases ht : i.testBit t <;> simp [ht] <;> ring
  rw [hr]
  rw [show app (mRZ (lam / 2)) c ψ = _ from diag_eq_mux c t _ _ ψ]
  simp only [ctrl_app, app_eq_mux]
  rw [mux_mux', mux_mux', mux_mux', mux_mux']
  · apply mux_congr; intro i
    by_cases hc : i.testBit c
    · simp only [hc, if_true]
      have e : mRZ (lam / 2) * mX * mRZ (-lam / 2) * mX = mRZ (lam / 2) * (mX * (mRZ (-lam / 2) * mX)) := by
        simp only [mul_assoc]
      rw [e, mX_mRZ_mX, mRZ_mul]
      ext <;> simp [mRZ, M2.mul_def, M2.scal, mPhase, ← cis_add] <;> congr 1 <;> ring
    · simp only [hc, Bool.false_eq_true, if_false, mI_eq_one, one_mul, mul_one]
      rw [mRZ_mul]
      have : lam / 2 + -lam / 2 = 0 := by ring
      rw [this, mRZ_zero, one_mul]
      congr 2; ring
  all_goals muxinv h.symm

/-! ## Commutation of operators on different qubits, linearity -/

theorem app_comm {a b : ℕ} (h : a ≠ b) (M N : M2) (ψ : Vec) :
    app M a (app N b ψ) = app N b (app M a ψ) := by
  funext i
  simp only [app, testBit_flipBit_ne h, testBit_flipBit_ne h.symm, flipBit_comm b a]
  by_cases ha : i.testBit a <;> by_cases hb : i.testBit b <;> simp [ha, hb] <;> ring

theorem app_app (a : ℕ) (M N : M2) (ψ : Vec) : app M a (app N a ψ) = app (M * N) a ψ := by
  simp only [app_eq_mux]; rw [mux_mux']; intro i; rfl

theorem app_one (a : ℕ) (ψ : Vec) : app 1 a ψ = ψ := mux_one a ψ

theorem app_lin (M : M2) (a : ℕ) (z w : ℂ) (ψ χ : Vec) :
    app M a (fun i => z * ψ i + w * χ i) = fun i => z * app M a ψ i + w * app M a χ i := by
  funext i; simp only [app]; by_cases ha : i.testBit a <;> simp [ha] <;> ring

theorem expPP_eq (P : M2) (θ : ℝ) (a b : ℕ) (ψ : Vec) : expPP P θ a b ψ =
    fun i => (Real.cos (θ / 2) : ℂ) * ψ i + (-(I * Real.sin (θ / 2))) * app P a (app P b ψ) i := by
  funext i; simp only [expPP]; ring

theorem fb_rzz (h : c ≠ t) (θ : ℝ) (ψ : Vec) :
    ctrl c (app mX t) (app (mRZ θ) t (ctrl c (app mX t) ψ)) = expPP mZ θ c t ψ := by
  have hr : expPP mZ θ c t ψ = mux t (fun i => if i.testBit c then mRZ (-θ) else mRZ θ) ψ := by
    funext i
    simp only [expPP, app, mux, mZ, mRZ, testBit_flipBit_ne h]
    by_cases hc : i.testBit c <;> by_cases ht : i.testBit t <;>
      simp [hc, ht, cis_eq, neg_div] <;> ring
  rw [hr]
  simp only [ctrl_app, app_eq_mux]
  rw [mux_mux', mux_mux']
  · apply mux_congr; intro i
    by_cases hc : i.testBit c
    · simp only [hc, if_true]; rw [mul_assoc, mX_mRZ_mX]
    · simp [hc, mI_eq_one]
  all_goals muxinv h.symm

/-- Conjugating `e^{-iθPP/2}` by one-qubit operators. -/
theorem expPP_conj (h : c ≠ t) (P Q V W : M2) (hVW : V * W = 1) (hPQ : V * (P * W) = Q) (θ : ℝ) (ψ : Vec) :
    app V t (app V c (expPP P θ c t (app W t (app W c ψ)))) = expPP Q θ c t ψ := by
  rw [expPP_eq, expPP_eq, app_lin, app_lin]
  have e1 : app V t (app V c (app W t (app W c ψ))) = ψ := by
    rw [app_comm h, app_app, hVW, app_one, app_app, hVW, app_one]
  have e2 : app V t (app V c (app P c (app P t (app W t (app W c ψ))))) = app Q c (app Q t ψ) := by
    rw [app_app t P W, app_app c V P, app_comm h.symm V (V * P), app_app t V (P * W), hPQ,
      app_comm h.symm Q W, app_app c, mul_assoc, hPQ]
  simp only [e1, e2]

theorem fb_rxx (h : c ≠ t) (θ : ℝ) (ψ : Vec) :
    app mH t (app mH c (expPP mZ θ c t (app mH t (app mH c ψ)))) = expPP mX θ c t ψ :=
  expPP_conj h mZ mX mH mH mH_mH mH_Z_mH θ ψ

theorem fb_ryy (h : c ≠ t) (θ : ℝ) (ψ : Vec) :
    app (mRX (Real.pi * 0.5)) t (app (mRX (Real.pi * 0.5)) c (expPP mZ θ c t
      (app (mRX (-Real.pi * 0.5)) t (app (mRX (-Real.pi * 0.5)) c ψ)))) = expPP mY θ c t ψ := by
  -- RX(π/2) Z RX(-π/2) = -Y, and (-Y) ⊗ (-Y) = Y ⊗ Y
  have hVW : mRX (Real.pi * 0.5) * mRX (-Real.pi * 0.5) = 1 := by
    rw [mRX_mul]; convert mRX_zero using 2; ring
  have hc : mRX (Real.pi * 0.5) * (mZ * mRX (-Real.pi * 0.5)) = ⟨0, I, -I, 0⟩ := by
    have e1 : Real.pi * 0.5 / 2 = Real.pi / 4 := by ring
    have e2 : -Real.pi * 0.5 / 2 = -(Real.pi / 4) := by ring
    have hs : ((√2 : ℝ) : ℂ) / 2 * (((√2 : ℝ) : ℂ) / 2) = 1 / 2 := by
      have := sqrt2_sq; linear_combination this / 4
    simp only [mRX, mZ, e1, e2, Real.cos_neg, Real.sin_neg, Real.cos_pi_div_four, Real.sin_pi_div_four]
    push_cast
    have hI : I * I = -1 := I_mul_I
    generalize ((√2 : ℝ) : ℂ) / 2 = r at *
    ext <;> simp only [M2.mul_def]
    · linear_combination r * r * hI
    · linear_combination 2 * I * hs
    · linear_combination -2 * I * hs
    · linear_combination - r * r * hI
  rw [expPP_conj h mZ _ _ _ hVW hc]
  funext i
  simp only [expPP, app, mY, testBit_flipBit_ne h]
  by_cases hc : i.testBit c <;> by_cases ht : i.testBit t <;> simp [hc, ht]


/-! ## SWAP, Toffoli, CSWAP -/

theorem ctrl_app_mX (c t : ℕ) (ψ : Vec) :
    ctrl c (app mX t) ψ = fun i => ψ (if i.testBit c then flipBit t i else i) := by
  funext i; simp only [ctrl, app, mX]
  by_cases hc : i.testBit c <;> by_cases ht : i.testBit t <;> simp [hc, ht]

theorem fb_swap (h : c ≠ t) (ψ : Vec) :
    ctrl c (app mX t) (ctrl t (app mX c) (ctrl c (app mX t) ψ)) = swapOp c t ψ := by
  funext i
  simp only [ctrl_app_mX, swapOp, swapBits]
  by_cases hc : i.testBit c <;> by_cases ht : i.testBit t <;>
    simp [hc, ht, testBit_flipBit_ne h, testBit_flipBit_ne h.symm, flipBit_comm t c]

theorem fb_cswap {a b : ℕ} (hca : c ≠ a) (hcb : c ≠ b) (h : a ≠ b) (ψ : Vec) :
    ctrl b (app mX a) (ctrl c (ctrl a (app mX b)) (ctrl b (app mX a) ψ)) = ctrl c (swapOp a b) ψ := by
  have e : ∀ χ : Vec, ctrl c (ctrl a (app mX b)) χ =
      fun i => χ (if i.testBit c then (if i.testBit a then flipBit b i else i) else i) := by
    intro χ; funext i
    rw [ctrl, ctrl_app_mX]
    by_cases hc : i.testBit c <;> simp [hc]
  rw [e]
  simp only [ctrl_app_mX]
  funext i
  simp only [swapBits, ctrl, swapOp]
  by_cases hc : i.testBit c <;> by_cases ha : i.testBit a <;> by_cases hb : i.testBit b <;>
    simp [hc, ha, hb, testBit_flipBit_ne h, testBit_flipBit_ne h.symm, testBit_flipBit_ne hca,
      testBit_flipBit_ne hca.symm, testBit_flipBit_ne hcb.symm, flipBit_comm a b]

theorem ctrl_ctrl_app (a b t : ℕ) (M : M2) (ψ : Vec) :
    ctrl a (ctrl b (app M t)) ψ =
      mux t (fun i => if i.testBit a then (if i.testBit b then M else mI) else mI) ψ := by
  have : ctrl b (app M t) = mux t (fun i => if i.testBit b then M else mI) := by
    funext χ; exact ctrl_app b t M χ
  rw [this, ctrl_mux]

/-- H CCZ H = CCX. -/
theorem ccx_via_ccz {a b : ℕ} (ha : a ≠ t) (hb : b ≠ t) (ψ : Vec) :
    app mH t (ctrl a (ctrl b (app mZ t)) (app mH t ψ)) = ctrl a (ctrl b (app mX t)) ψ := by
  simp only [ctrl_ctrl_app, app_eq_mux]
  rw [mux_mux', mux_mux']
  · apply mux_congr; intro i
    by_cases h1 : i.testBit a <;> by_cases h2 : i.testBit b <;>
      simp [h1, h2, mI_eq_one, mul_assoc, mH_Z_mH, mH_mH]
  · muxinv ha.symm
  · intro i; simp only [testBit_flipBit_ne ha.symm, testBit_flipBit_ne hb.symm]

/-- The diagonal tail `T a, T† b` between two CNOTs is a controlled phase. -/
theorem toffoli_tail {a b : ℕ} (h : a ≠ b) (t : ℕ) (ψ : Vec) :
    ctrl a (app mX b) (app mTdg b (app mT a (ctrl a (app mX b) (app mT b ψ)))) =
      mux t (fun i => M2.scal (if i.testBit a then (if i.testBit b then I else 1) else 1)) ψ := by
  have hTT : cis (Real.pi / 4) * cis (Real.pi / 4) = I := by
    rw [← cis_add, ← cis_pi_div_two]; congr 1; ring
  have hT1 : cis (Real.pi / 4) * cis (-(Real.pi / 4)) = 1 := cis_mul_cis_neg _
  have hT2 : cis (-(Real.pi / 4)) * cis (Real.pi / 4) = 1 := by rw [mul_comm]; exact hT1
  simp only [ctrl_app_mX]
  funext i
  simp only [app, mT, mTdg, mPhase, mux, M2.scal]
  by_cases ha : i.testBit a <;> by_cases hb : i.testBit b <;> by_cases ht : i.testBit t <;>
    simp [ha, hb, ht, testBit_flipBit_ne h, testBit_flipBit_ne h.symm, ← mul_assoc, hTT, hT1, hT2]

theorem mT_mTdg : mT * mTdg = 1 := by
  ext <;> simp [mT, mTdg, mPhase, M2.mul_def, M2.one_def, cis_mul_cis_neg]

theorem mTdg_mT : mTdg * mT = 1 := by
  ext <;> simp [mT, mTdg, mPhase, M2.mul_def, M2.one_def, mul_comm _ (cis (Real.pi / 4)), cis_mul_cis_neg]

theorem scal_comm (z : ℂ) (M : M2) : M2.scal z * M = M * M2.scal z := by
  ext <;> simp [M2.scal, M2.mul_def, mul_comm]

theorem toffoli_core : mT * (mX * (mTdg * (mX * (mT * (mX * (mTdg * mX)))))) = ⟨-I, 0, 0, I⟩ := by
  have hTT : cis (Real.pi / 4) * cis (Real.pi / 4) = I := by
    rw [← cis_add, ← cis_pi_div_two]; congr 1; ring
  have hTT' : cis (-(Real.pi / 4)) * cis (-(Real.pi / 4)) = -I := by
    rw [cis_neg, ← mul_inv, hTT]; simp
  ext <;> simp [mT, mTdg, mPhase, mX, M2.mul_def, hTT, hTT']

theorem toffoli_core2 : (⟨-I, 0, 0, I⟩ : M2) * M2.scal I = mZ := by
  ext <;> simp [M2.mul_def, M2.scal, mZ]

theorem fb_ccx {a b : ℕ} (hab : a ≠ b) (hat : a ≠ t) (hbt : b ≠ t) (ψ : Vec) :
    ctrl a (app mX b) (app mTdg b (app mT a (ctrl a (app mX b) (app mH t (app mT t (app mT b
      (ctrl a (app mX t) (app mTdg t (ctrl b (app mX t) (app mT t (ctrl a (app mX t) (app mTdg t
        (ctrl b (app mX t) (app mH t ψ)))))))))))))) =
      ctrl a (ctrl b (app mX t)) ψ := by
  rw [app_comm hbt.symm mT mT, app_comm hbt.symm mH mT, toffoli_tail hab t, ctrl_ctrl_app]
  simp only [ctrl_app, app_eq_mux]
  rw [mux_mux', mux_mux', mux_mux', mux_mux', mux_mux', mux_mux', mux_mux', mux_mux', mux_mux', mux_mux']
  · apply mux_congr; intro i
    have hX : ∀ M : M2, mX * (mX * M) = M := fun M => by rw [← mul_assoc, mX_mX, one_mul]
    have h1 : ∀ M : M2, mT * (mTdg * M) = M := fun M => by rw [← mul_assoc, mT_mTdg, one_mul]
    have h2 : ∀ M : M2, mTdg * (mT * M) = M := fun M => by rw [← mul_assoc, mTdg_mT, one_mul]
    by_cases ha : i.testBit a <;> by_cases hb : i.testBit b
    · simp only [ha, hb, if_true, mul_assoc]
      have e : ∀ M : M2, mT * (mX * (mTdg * (mX * (mT * (mX * (mTdg * (mX * M))))))) =
          (mT * (mX * (mTdg * (mX * (mT * (mX * (mTdg * mX))))))) * M := by
        intro M; simp only [mul_assoc]
      rw [e, toffoli_core, scal_comm, mul_assoc, mul_assoc, ← scal_comm, ← mul_assoc _ (M2.scal I), 
        toffoli_core2, mH_Z_mH]
    all_goals simp [ha, hb, mI_eq_one, scal_one, mul_assoc, hX, h1, h2, mH_mH]
  all_goals (intro i; simp only [testBit_flipBit_ne hat.symm, testBit_flipBit_ne hbt.symm])

end

end Spec
