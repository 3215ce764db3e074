import Verif.Qasm
import Verif.Spec.Qasm
import Verif.NumpyRefine

/-! Lemmas: the `qelib1.inc` bodies are the documented gates up to a global phase. -/

set_option linter.unusedSimpArgs false
set_option linter.unusedVariables false

namespace Spec

open Complex
open Blueqat (G1 G2 G3 Gate)

noncomputable section

/-- Equal up to a fixed unit factor. -/
def EqPh (U V : Vec → Vec) : Prop := ∃ z : ℂ, ‖z‖ = 1 ∧ ∀ ψ, U ψ = fun i => z * V ψ i

theorem basic_smul (b : Basic) (z : ℂ) (ψ : Vec) : b.apply (fun i => z * ψ i) = fun i => z * b.apply ψ i := by
  have h := fun M q => app_lin M q z 0 ψ ψ
  simp only [zero_mul, add_zero] at h
  cases b with
  | u θ φ lam q => exact h _ q
  | cx c t =>
    simp only [Basic.apply]
    funext i
    simp only [ctrl, h]
    split_ifs <;> rfl

theorem applyAll_smul (bs : List Basic) (z : ℂ) : ∀ ψ, applyAll bs (fun i => z * ψ i) = fun i => z * applyAll bs ψ i := by
  induction bs with
  | nil => intro ψ; rfl
  | cons b bs ih =>
    intro ψ
    show applyAll bs (b.apply _) = fun i => z * applyAll bs (b.apply ψ) i
    rw [basic_smul, ih]

theorem eqPh_nil : EqPh (applyAll []) id := ⟨1, by simp, fun ψ => by simp [applyAll]⟩

theorem eqPh_cons {b : Basic} {bs : List Basic} {U V : Vec → Vec} (h1 : EqPh b.apply U) (h2 : EqPh (applyAll bs) V) :
    EqPh (applyAll (b :: bs)) (fun ψ => V (U ψ)) := by
  obtain ⟨z, hz, h1⟩ := h1
  obtain ⟨w, hw, h2⟩ := h2
  refine ⟨z * w, by simp [hz, hw], fun ψ => ?_⟩
  show applyAll bs (b.apply ψ) = _
  rw [h1, applyAll_smul, h2]
  funext i; ring

theorem eqPh_append {as bs : List Basic} {U V : Vec → Vec} (h1 : EqPh (applyAll as) U) (h2 : EqPh (applyAll bs) V) :
    EqPh (applyAll (as ++ bs)) (fun ψ => V (U ψ)) := by
  obtain ⟨z, hz, h1⟩ := h1
  obtain ⟨w, hw, h2⟩ := h2
  refine ⟨z * w, by simp [hz, hw], fun ψ => ?_⟩
  rw [applyAll, List.foldl_append]
  show applyAll bs (applyAll as ψ) = _
  rw [h1, applyAll_smul, h2]
  funext i; ring

theorem eqPh_congr {U V V' : Vec → Vec} (h : EqPh U V) (e : ∀ ψ, V ψ = V' ψ) : EqPh U V' := by
  obtain ⟨z, hz, h⟩ := h
  exact ⟨z, hz, fun ψ => by rw [h, e]⟩

/-- A further factor. -/
theorem eqPh_scale {U V V' : Vec → Vec} (h : EqPh U V) {w : ℂ} (hw : ‖w‖ = 1)
    (e : ∀ ψ, V ψ = fun i => w * V' ψ i) : EqPh U V' := by
  obtain ⟨z, hz, h⟩ := h
  refine ⟨z * w, by simp [hz, hw], fun ψ => ?_⟩
  rw [h, e]; funext i; ring

theorem eqPh_refl (U : Vec → Vec) : EqPh U U := ⟨1, by simp, fun ψ => by simp⟩

theorem app_scal (z : ℂ) (M : M2) (q : ℕ) (ψ : Vec) : app (M2.scal z * M) q ψ = fun i => z * app M q ψ i := by
  funext i; simp only [app, M2.scal, M2.mul_def]; split_ifs <;> ring

theorem eqPh_u {θ φ lam : ℝ} {M : M2} (q : ℕ) (z : ℂ) (hz : ‖z‖ = 1) (h : mU3 θ φ lam = M2.scal z * M) :
    EqPh (Basic.u θ φ lam q).apply (app M q) := ⟨z, hz, fun ψ => by simp only [Basic.apply]; rw [h, app_scal]⟩

theorem eqPh_cx (c t : ℕ) : EqPh (Basic.cx c t).apply (ctrl c (app mX t)) := eqPh_refl _

/-! ## One-qubit gates -/

theorem norm_negI : ‖-I‖ = 1 := by simp

theorem mU3_x : mU3 Real.pi 0 Real.pi = M2.scal (-I) * mX := by
  ext <;> simp [mU3, mX, M2.scal, M2.mul_def, cis_neg, cis_pi_div_two, neg_div]

theorem mU3_y : mU3 Real.pi (Real.pi / 2) (Real.pi / 2) = M2.scal (-I) * mY := by
  ext <;> simp [mU3, mY, M2.scal, M2.mul_def, cis_zero]

theorem mU3_h : mU3 (Real.pi / 2) 0 Real.pi = M2.scal (-I) * mH := by
  have e : Real.pi / 2 / 2 = Real.pi / 4 := by ring
  have hs : ((√2 : ℝ) : ℂ) / 2 = 1 / ((√2 : ℝ) : ℂ) := by
    rw [div_eq_div_iff (by norm_num) sqrt2_ne]; simpa using sqrt2_sq
  simp only [mU3, e, Real.cos_pi_div_four, Real.sin_pi_div_four]
  ext <;> simp [mH, M2.scal, M2.mul_def, cis_neg, cis_pi_div_two, neg_div, hs]

theorem mRZ_phase (θ : ℝ) : mRZ θ = M2.scal (cis (-(θ / 2))) * mPhase θ := by
  ext <;> simp [mRZ, mPhase, M2.scal, M2.mul_def, ← cis_add]
  congr 1; ring

theorem eqPh_phase (lam : ℝ) (q : ℕ) : EqPh (Basic.u 0 0 lam q).apply (app (mPhase lam) q) :=
  eqPh_u q _ (norm_cis _) (by rw [mU3_zero, mRZ_phase])

theorem eqPh_rz (lam : ℝ) (q : ℕ) : EqPh (Basic.u 0 0 lam q).apply (app (mRZ lam) q) := by
  have := eqPh_refl (Basic.u 0 0 lam q).apply
  simp only [Basic.apply, mU3_zero] at this ⊢
  exact this

theorem mZ_eq : mZ = mPhase Real.pi := by simp [mZ, mPhase, cis_pi]

theorem mSdg_eq' : mSdg = mPhase (-(Real.pi / 2)) := by rw [mSdg_eq]; congr 1; ring

theorem eqPh_x (q : ℕ) : EqPh (qx q).apply (app mX q) := eqPh_u q _ norm_negI mU3_x
theorem eqPh_y (q : ℕ) : EqPh (Basic.u Real.pi (Real.pi / 2) (Real.pi / 2) q).apply (app mY q) :=
  eqPh_u q _ norm_negI mU3_y
theorem eqPh_h (q : ℕ) : EqPh (qh q).apply (app mH q) := eqPh_u q _ norm_negI mU3_h
theorem eqPh_z (q : ℕ) : EqPh (Basic.u 0 0 Real.pi q).apply (app mZ q) := by rw [mZ_eq]; exact eqPh_phase _ q
theorem eqPh_s (q : ℕ) : EqPh (Spec.qs q).apply (app mS q) := by rw [mS_eq]; exact eqPh_phase _ q
theorem eqPh_sdg (q : ℕ) : EqPh (qsdg q).apply (app mSdg q) := by rw [mSdg_eq']; exact eqPh_phase _ q
theorem eqPh_t (q : ℕ) : EqPh (qt q).apply (app mT q) := eqPh_phase _ q
theorem eqPh_tdg (q : ℕ) : EqPh (qtdg q).apply (app mTdg q) := eqPh_phase _ q
theorem eqPh_u1 (lam : ℝ) (q : ℕ) : EqPh (qu1 lam q).apply (app (mRZ lam) q) := eqPh_rz lam q
theorem eqPh_u3 (θ φ lam : ℝ) (q : ℕ) : EqPh (Basic.u θ φ lam q).apply (app (mU3 θ φ lam) q) := eqPh_refl _

theorem mU3_rx (θ : ℝ) : mU3 θ (-(Real.pi / 2)) (Real.pi / 2) = mRX θ := by
  have e : (-(Real.pi / 2) - Real.pi / 2) / 2 = -(Real.pi / 2) := by ring
  have e' : (-(Real.pi / 2) + Real.pi / 2) / 2 = 0 := by ring
  simp only [mU3, e, e', neg_neg, neg_zero]
  ext <;> simp [mRX, cis_neg, cis_zero, cis_pi_div_two]

theorem mU3_ry (θ : ℝ) : mU3 θ 0 0 = mRY θ := by ext <;> simp [mU3, mRY, cis_zero]

theorem eqPh_one {bs : Basic} {U : Vec → Vec} (h : EqPh bs.apply U) : EqPh (applyAll [bs]) U :=
  eqPh_congr (eqPh_cons h eqPh_nil) fun _ => rfl

/-! ## Two- and three-qubit gates -/

theorem qelib_cz {c t : ℕ} (h : c ≠ t) : EqPh (applyAll [qh t, .cx c t, qh t]) (ctrl c (app mZ t)) := by
  refine eqPh_congr (eqPh_cons (eqPh_h t) (eqPh_cons (eqPh_cx c t) (eqPh_one (eqPh_h t)))) fun ψ => ?_
  simp only [ctrl_app, app_eq_mux]
  rw [mux_mux', mux_mux']
  · apply mux_congr; intro i
    by_cases hc : i.testBit c
    · simp only [hc, if_true]; rw [mul_assoc, mH_X_mH]
    · simp [hc, mI_eq_one, mH_mH]
  all_goals muxinv h.symm

theorem qelib_cy {c t : ℕ} (h : c ≠ t) : EqPh (applyAll [qsdg t, .cx c t, Spec.qs t]) (ctrl c (app mY t)) :=
  eqPh_congr (eqPh_cons (eqPh_sdg t) (eqPh_cons (eqPh_cx c t) (eqPh_one (eqPh_s t)))) fun ψ => fb_cy h ψ

theorem qelib_swap {c t : ℕ} (h : c ≠ t) : EqPh (applyAll [.cx c t, .cx t c, .cx c t]) (swapOp c t) :=
  eqPh_congr (eqPh_cons (eqPh_cx c t) (eqPh_cons (eqPh_cx t c) (eqPh_one (eqPh_cx c t)))) fun ψ => fb_swap h ψ

theorem qelib_cu1 {c t : ℕ} (h : c ≠ t) (lam : ℝ) :
    EqPh (applyAll [qu1 (lam / 2) c, .cx c t, qu1 (-lam / 2) t, .cx c t, qu1 (lam / 2) t])
      (ctrl c (app (mPhase lam) t)) :=
  eqPh_scale (eqPh_cons (eqPh_u1 _ c) (eqPh_cons (eqPh_cx c t) (eqPh_cons (eqPh_u1 _ t) (eqPh_cons (eqPh_cx c t)
    (eqPh_one (eqPh_u1 _ t)))))) (norm_cis (-(lam / 4))) fun ψ => fb_cu1 h lam ψ

theorem qelib_cu3 {c t : ℕ} (h : c ≠ t) (θ φ lam : ℝ) :
    EqPh (applyAll [qu1 ((lam - φ) / 2) t, .cx c t, .u (-θ / 2) 0 (-(φ + lam) / 2) t, .cx c t, .u (θ / 2) φ 0 t])
      (ctrl c (app (mU3 θ φ lam) t)) :=
  eqPh_congr (eqPh_cons (eqPh_u1 _ t) (eqPh_cons (eqPh_cx c t) (eqPh_cons (eqPh_u3 _ _ _ t) (eqPh_cons (eqPh_cx c t)
    (eqPh_one (eqPh_u3 _ _ _ t)))))) fun ψ => fb_cu3 h θ φ lam ψ

theorem cis_quarter_sq : cis (Real.pi / 4) * cis (Real.pi / 4) = I := by
  rw [← cis_add, ← cis_pi_div_two]; congr 1; ring

theorem cis_quarter : cis (Real.pi / 4) = (1 + I) / ((√2 : ℝ) : ℂ) := by
  have hs : ((√2 : ℝ) : ℂ) / 2 = 1 / ((√2 : ℝ) : ℂ) := by
    rw [div_eq_div_iff (by norm_num) sqrt2_ne]; simpa using sqrt2_sq
  rw [cis_eq, Real.cos_pi_div_four, Real.sin_pi_div_four]
  push_cast
  rw [hs]; ring

theorem ch_zero : mX * (mS * (mH * (mT * (mT * (mH * (mSdg * mH)))))) = M2.scal (cis (Real.pi / 4)) := by
  have hTT : mT * mT = mS := by
    ext <;> simp [mT, mS, mPhase, M2.mul_def, cis_quarter_sq]
  have hr : (((√2 : ℝ) : ℂ))⁻¹ * (((√2 : ℝ) : ℂ))⁻¹ = 1 / 2 := by rw [← mul_inv, sqrt2_sq]; norm_num
  rw [← mul_assoc mT, hTT, cis_quarter]
  simp only [mX, mS, mH, mSdg, M2.mul_def, M2.scal, one_div, div_eq_mul_inv]
  have hI : I * I = -1 := I_mul_I
  generalize (((√2 : ℝ) : ℂ))⁻¹ = r at *
  ext <;> simp only [] <;> ring_nf <;> rw [show r ^ 3 = r * (r * r) by ring, hr] <;>
    (try simp only [show I ^ 2 = -1 from I_sq, show I ^ 3 = -I by rw [pow_succ, I_sq]; ring]) <;> ring

theorem ch_one : mX * (mS * (mH * (mT * (mX * (mT * (mH * (mX * (mSdg * mH)))))))) * M2.scal I =
    M2.scal (cis (Real.pi / 4)) * mH := by
  have hTXT : ∀ M, mT * (mX * (mT * M)) = M2.scal (cis (Real.pi / 4)) * (mX * M) := by
    intro M
    rw [← mul_assoc mX, ← mul_assoc mT, ← mul_assoc (M2.scal _)]
    congr 1
    ext <;> simp [mT, mX, mPhase, M2.mul_def, M2.scal]
  rw [hTXT]
  have hr : (((√2 : ℝ) : ℂ))⁻¹ * (((√2 : ℝ) : ℂ))⁻¹ = 1 / 2 := by rw [← mul_inv, sqrt2_sq]; norm_num
  simp only [mX, mS, mH, mSdg, M2.mul_def, M2.scal, one_div]
  have hI : I * I = -1 := I_mul_I
  generalize (((√2 : ℝ) : ℂ))⁻¹ = r at *
  generalize cis (Real.pi / 4) = w
  ext <;> simp only [] <;> ring_nf <;> rw [show r ^ 3 = r * (r * r) by ring, hr] <;>
    (try simp only [show I ^ 2 = -1 from I_sq, show I ^ 3 = -I by rw [pow_succ, I_sq]; ring]) <;> ring

theorem qelib_ch {c t : ℕ} (h : c ≠ t) :
    EqPh (applyAll [qh t, qsdg t, .cx c t, qh t, qt t, .cx c t, qt t, qh t, Spec.qs t, qx t, Spec.qs c])
      (ctrl c (app mH t)) := by
  refine eqPh_scale (eqPh_cons (eqPh_h t) (eqPh_cons (eqPh_sdg t) (eqPh_cons (eqPh_cx c t) (eqPh_cons (eqPh_h t)
    (eqPh_cons (eqPh_t t) (eqPh_cons (eqPh_cx c t) (eqPh_cons (eqPh_t t) (eqPh_cons (eqPh_h t)
    (eqPh_cons (eqPh_s t) (eqPh_cons (eqPh_x t) (eqPh_one (eqPh_s c)))))))))))) (norm_cis (Real.pi / 4)) fun ψ => ?_
  have hr : (fun i => cis (Real.pi / 4) * ctrl c (app mH t) ψ i) =
      mux t (fun i => M2.scal (cis (Real.pi / 4)) * (if i.testBit c then mH else mI)) ψ := by
    rw [ctrl_app]
    funext i
    simp only [mux, M2.mul_def, M2.scal]
    by_cases ht : i.testBit t <;> simp [ht] <;> ring
  rw [hr, show ∀ χ, app mS c χ = _ from fun χ => diag_eq_mux c t 1 I χ]
  simp only [ctrl_app, app_eq_mux]
  rw [mux_mux', mux_mux', mux_mux', mux_mux', mux_mux', mux_mux', mux_mux', mux_mux', mux_mux', mux_mux']
  · apply mux_congr; intro i
    by_cases hc : i.testBit c
    · simp only [hc, if_true, mul_assoc]
      rw [scal_comm, mul_assoc]
      rw [← ch_one]; simp only [mul_assoc]
    · simp only [hc, Bool.false_eq_true, if_false, mI_eq_one, one_mul, mul_one, scal_one, mul_assoc]
      exact ch_zero
  all_goals muxinv h.symm

theorem qelib_ccx {a b t : ℕ} (hab : a ≠ b) (hat : a ≠ t) (hbt : b ≠ t) :
    EqPh (applyAll (qccx a b t)) (ctrl a (ctrl b (app mX t))) :=
  eqPh_congr (eqPh_cons (eqPh_h t) (eqPh_cons (eqPh_cx b t) (eqPh_cons (eqPh_tdg t) (eqPh_cons (eqPh_cx a t)
    (eqPh_cons (eqPh_t t) (eqPh_cons (eqPh_cx b t) (eqPh_cons (eqPh_tdg t) (eqPh_cons (eqPh_cx a t)
    (eqPh_cons (eqPh_t b) (eqPh_cons (eqPh_t t) (eqPh_cons (eqPh_h t) (eqPh_cons (eqPh_cx a b)
    (eqPh_cons (eqPh_t a) (eqPh_cons (eqPh_tdg b) (eqPh_one (eqPh_cx a b)))))))))))))))) 
    fun ψ => fb_ccx hab hat hbt ψ

theorem qelib_cswap {a b t : ℕ} (hab : a ≠ b) (hat : a ≠ t) (hbt : b ≠ t) :
    EqPh (applyAll (.cx t b :: qccx a b t ++ [.cx t b])) (ctrl a (swapOp b t)) :=
  eqPh_congr (eqPh_append (eqPh_cons (eqPh_cx t b) (qelib_ccx hab hat hbt)) (eqPh_one (eqPh_cx t b)))
    fun ψ => fb_cswap hab hat hbt ψ

end

end Spec
