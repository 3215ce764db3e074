import Verif.FallbackGates
import Mathlib.Algebra.BigOperators.Field

/-! Lemmas: every unitary elementary operation preserves inner products; measurement and reset restore
norm 1. -/

set_option linter.unusedSimpArgs false
set_option linter.unusedVariables false

namespace Spec

open Complex
open Blueqat (G1 G2 G3 Gate)
open scoped ComplexConjugate

noncomputable section

/-- Inner product of two `n`-qubit states. -/
def inner (n : ℕ) (ψ χ : Vec) : ℂ := ∑ i ∈ Finset.range (2 ^ n), conj (ψ i) * χ i

/-- `M† M = 1`. -/
def M2.Unit (M : M2) : Prop :=
  conj M.a * M.a + conj M.c * M.c = 1 ∧ conj M.b * M.b + conj M.d * M.d = 1 ∧
    conj M.a * M.b + conj M.c * M.d = 0

theorem sum_pair {β : Type} [AddCommMonoid β] {n t : ℕ} (ht : t < n) (f : ℕ → β) :
    ∑ i ∈ Finset.range (2 ^ n), f i =
      ∑ i ∈ (Finset.range (2 ^ n)).filter (fun i => i.testBit t = false), (f i + f (flipBit t i)) := by
  rw [Finset.sum_add_distrib, ← Finset.sum_filter_add_sum_filter_not _ (fun i : ℕ => i.testBit t = false)]
  congr 1
  refine Finset.sum_nbij' (flipBit t) (flipBit t) ?_ ?_ ?_ ?_ ?_
  · intro i hi; simp only [Finset.mem_filter, Finset.mem_range] at *
    exact ⟨flipBit_lt ht hi.1, by simpa using hi.2⟩
  · intro i hi; simp only [Finset.mem_filter, Finset.mem_range] at *
    exact ⟨flipBit_lt ht hi.1, by simp [hi.2]⟩
  · intro i _; simp
  · intro i _; simp
  · intro i _; simp

theorem inner_mux {n t : ℕ} (ht : t < n) (F : ℕ → M2) (hF : ∀ i, F (flipBit t i) = F i)
    (hU : ∀ i, (F i).Unit) (ψ χ : Vec) : inner n (mux t F ψ) (mux t F χ) = inner n ψ χ := by
  simp only [inner]
  rw [sum_pair ht, sum_pair ht]
  apply Finset.sum_congr rfl
  intro i hi
  have hb := (Finset.mem_filter.1 hi).2
  obtain ⟨h1, h2, h3⟩ := hU i
  have h3' : conj (F i).b * (F i).a + conj (F i).d * (F i).c = 0 := by
    have := congrArg conj h3
    simp only [map_add, map_mul, conj_conj, map_zero] at this
    linear_combination this
  simp only [mux, testBit_flipBit_self, hb, flipBit_flipBit, hF, Bool.not_false, Bool.false_eq_true, if_false,
    if_true, map_add, map_mul]
  linear_combination (conj (ψ i) * χ i) * h1 + (conj (ψ (flipBit t i)) * χ (flipBit t i)) * h2 +
    (conj (ψ i) * χ (flipBit t i)) * h3 + (conj (ψ (flipBit t i)) * χ i) * h3'

theorem M2.Unit.mul {M N : M2} (hM : M.Unit) (hN : N.Unit) : (M * N).Unit := by
  obtain ⟨h1, h2, h3⟩ := hM
  obtain ⟨k1, k2, k3⟩ := hN
  have h3' : conj M.b * M.a + conj M.d * M.c = 0 := by
    have := congrArg conj h3
    simp only [map_add, map_mul, conj_conj, map_zero] at this
    linear_combination this
  refine ⟨?_, ?_, ?_⟩ <;> simp only [M2.mul_def, map_add, map_mul]
  · linear_combination k1 + (conj N.a * N.a) * h1 + (conj N.c * N.c) * h2 + (conj N.a * N.c) * h3 +
      (conj N.c * N.a) * h3'
  · linear_combination k2 + (conj N.b * N.b) * h1 + (conj N.d * N.d) * h2 + (conj N.b * N.d) * h3 +
      (conj N.d * N.b) * h3'
  · linear_combination k3 + (conj N.a * N.b) * h1 + (conj N.c * N.d) * h2 + (conj N.a * N.d) * h3 +
      (conj N.c * N.b) * h3'

theorem conj_cis (x : ℝ) : conj (cis x) = cis (-x) := by
  simp only [cis, ← Complex.exp_conj, map_mul, conj_ofReal, conj_I]; congr 1; push_cast; ring

theorem conj_cis_mul (x : ℝ) : conj (cis x) * cis x = 1 := by
  rw [conj_cis, mul_comm, cis_mul_cis_neg]

theorem unit_one : M2.Unit 1 := by simp [M2.Unit, M2.one_def]
theorem unit_I : mI.Unit := unit_one
theorem unit_diag {z w : ℂ} (hz : conj z * z = 1) (hw : conj w * w = 1) : M2.Unit ⟨z, 0, 0, w⟩ := by
  simp [M2.Unit, hz, hw]
theorem unit_X : mX.Unit := by simp [M2.Unit, mX]
theorem unit_Y : mY.Unit := by simp [M2.Unit, mY]
theorem unit_Z : mZ.Unit := by simp [M2.Unit, mZ]
theorem unit_H : mH.Unit := by
  have h2 : (1 / ((√2 : ℝ) : ℂ)) * (1 / ((√2 : ℝ) : ℂ)) = 1 / 2 := by
    rw [div_mul_div_comm, sqrt2_sq]; norm_num
  have hc : conj (1 / ((√2 : ℝ) : ℂ)) = 1 / ((√2 : ℝ) : ℂ) := by
    rw [map_div₀, conj_ofReal, map_one]
  simp only [M2.Unit, mH, map_neg, hc]
  refine ⟨?_, ?_, ?_⟩
  · linear_combination 2 * h2
  · linear_combination 2 * h2
  · ring
theorem cs_sq (x : ℝ) : (Real.cos x : ℂ) * Real.cos x + (Real.sin x : ℂ) * Real.sin x = 1 := by
  rw [← ofReal_mul, ← ofReal_mul, ← ofReal_add]
  have := Real.cos_sq_add_sin_sq x
  rw [show Real.cos x * Real.cos x + Real.sin x * Real.sin x = 1 by nlinarith]; rfl
theorem unit_RX (θ : ℝ) : (mRX θ).Unit := by
  have h := cs_sq (θ / 2)
  simp only [M2.Unit, mRX, map_neg, map_mul, conj_ofReal, conj_I]
  have hI : I * I = -1 := I_mul_I
  refine ⟨?_, ?_, ?_⟩
  · linear_combination h - (Real.sin (θ/2) : ℂ) * Real.sin (θ/2) * hI
  · linear_combination h - (Real.sin (θ/2) : ℂ) * Real.sin (θ/2) * hI
  · ring
theorem unit_RY (θ : ℝ) : (mRY θ).Unit := by
  have h := cs_sq (θ / 2)
  simp only [M2.Unit, mRY, map_neg, map_mul, conj_ofReal]
  refine ⟨?_, ?_, ?_⟩
  · linear_combination h
  · linear_combination h
  · ring
theorem unit_RZ (θ : ℝ) : (mRZ θ).Unit := unit_diag (conj_cis_mul _) (conj_cis_mul _)
theorem unit_phase (θ : ℝ) : (mPhase θ).Unit := unit_diag (by simp) (conj_cis_mul _)
theorem unit_U3 (θ φ lam : ℝ) : (mU3 θ φ lam).Unit := by
  rw [mU3_eq]; exact (unit_RZ _).mul ((unit_RY _).mul (unit_RZ _))

theorem unit_matrix1 (k : G1) : (matrix1 k).Unit := by
  cases k <;> simp only [matrix1]
  · exact unit_I
  · exact unit_X
  · exact unit_Y
  · exact unit_Z
  · exact unit_H
  · exact unit_phase _
  · exact unit_phase _
  · rw [mS_eq]; exact unit_phase _
  · rw [mSdg_eq]; exact unit_phase _
  · exact unit_RX _
  · exact unit_RY _
  · exact unit_RZ _
  · exact unit_phase _
  · exact unit_RZ _
  · exact unit_U3 _ _ _
  · exact unit_U3 _ _ _

/-- `U` preserves inner products of `n`-qubit states. -/
def Isom (n : ℕ) (U : Vec → Vec) : Prop := ∀ ψ χ, inner n (U ψ) (U χ) = inner n ψ χ

theorem Isom.comp {n : ℕ} {U V : Vec → Vec} (hU : Isom n U) (hV : Isom n V) : Isom n (fun ψ => U (V ψ)) :=
  fun ψ χ => (hU _ _).trans (hV _ _)

theorem Isom.congr {n : ℕ} {U V : Vec → Vec} (hU : Isom n U) (h : ∀ ψ, U ψ = V ψ) : Isom n V :=
  fun ψ χ => by rw [← h, ← h]; exact hU ψ χ

theorem isom_app {n t : ℕ} (ht : t < n) {M : M2} (hM : M.Unit) : Isom n (app M t) :=
  fun ψ χ => inner_mux ht _ (fun _ => rfl) (fun _ => hM) ψ χ

theorem isom_ctrl_app {n c t : ℕ} (ht : t < n) (h : c ≠ t) {M : M2} (hM : M.Unit) :
    Isom n (ctrl c (app M t)) := fun ψ χ => by
  simp only [ctrl_app]
  refine inner_mux ht _ (fun i => by simp only [testBit_flipBit_ne h.symm]) (fun i => ?_) ψ χ
  by_cases hc : i.testBit c <;> simp [hc, hM, unit_I]

theorem isom_ctrl_ctrl_app {n a b t : ℕ} (ht : t < n) (ha : a ≠ t) (hb : b ≠ t) {M : M2} (hM : M.Unit) :
    Isom n (ctrl a (ctrl b (app M t))) := fun ψ χ => by
  simp only [ctrl_ctrl_app]
  refine inner_mux ht _ (fun i => by simp only [testBit_flipBit_ne ha.symm, testBit_flipBit_ne hb.symm])
    (fun i => ?_) ψ χ
  by_cases h1 : i.testBit a <;> by_cases h2 : i.testBit b <;> simp [h1, h2, hM, unit_I]

theorem isom_swap {n a b : ℕ} (ha : a < n) (hb : b < n) (h : a ≠ b) : Isom n (swapOp a b) :=
  ((isom_ctrl_app hb h unit_X).comp ((isom_ctrl_app ha h.symm unit_X).comp (isom_ctrl_app hb h unit_X))).congr
    fun ψ => fb_swap h ψ

theorem isom_rzz {n a b : ℕ} (hb : b < n) (h : a ≠ b) (θ : ℝ) : Isom n (expPP mZ θ a b) :=
  ((isom_ctrl_app hb h unit_X).comp ((isom_app hb (unit_RZ θ)).comp (isom_ctrl_app hb h unit_X))).congr
    fun ψ => fb_rzz h θ ψ

theorem isom_op2 {n c t : ℕ} {ph : ℝ → ℂ} (hph : ∀ x, ‖ph x‖ = 1) (k : G2) (hc : c < n) (ht : t < n)
    (h : c ≠ t) : Isom n (op2 ph k c t) := by
  have hA : ∀ {M : M2}, M.Unit → Isom n (ctrl c (app M t)) := fun hM => isom_ctrl_app ht h hM
  have hph' : ∀ x, conj (ph x) * ph x = 1 := fun x => by
    rw [mul_comm, mul_conj, normSq_eq_norm_sq, hph]; norm_num
  cases k <;> simp only [op2]
  · exact hA unit_X
  · exact hA unit_Z
  · exact hA unit_Y
  · exact hA unit_H
  · exact hA (unit_RX _)
  · exact hA (unit_RY _)
  · exact hA (unit_RZ _)
  · exact hA (unit_phase _)
  · exact ((isom_app ht unit_H).comp ((isom_app hc unit_H).comp ((isom_rzz ht h _).comp
      ((isom_app ht unit_H).comp (isom_app hc unit_H))))).congr fun ψ => fb_rxx h _ ψ
  · exact ((isom_app ht (unit_RX _)).comp ((isom_app hc (unit_RX _)).comp ((isom_rzz ht h _).comp
      ((isom_app ht (unit_RX _)).comp (isom_app hc (unit_RX _)))))).congr fun ψ => fb_ryy h _ ψ
  · exact isom_rzz ht h _
  · exact isom_swap hc ht h
  · intro ψ χ
    rename_i lam
    rw [← hA (unit_phase lam) ψ χ]
    simp only [inner]
    apply Finset.sum_congr rfl
    intro i _
    rw [map_mul]
    linear_combination (conj (ctrl c (app (mPhase lam) t) ψ i) * ctrl c (app (mPhase lam) t) χ i) * hph' lam
  · exact hA (unit_U3 _ _ _)
  · exact hA (unit_U3 _ _ _)

theorem isom_op3 {n a b c : ℕ} (k : G3) (ha : a < n) (hb : b < n) (hc : c < n) (hab : a ≠ b)
    (hac : a ≠ c) (hbc : b ≠ c) : Isom n (op3 k a b c) := by
  cases k <;> simp only [op3]
  · exact isom_ctrl_ctrl_app hc hac hbc unit_X
  · exact isom_ctrl_ctrl_app hc hac hbc unit_Z
  · exact ((isom_ctrl_app hb hbc.symm unit_X).comp ((isom_ctrl_ctrl_app hc hac hbc unit_X).comp
      (isom_ctrl_app hb hbc.symm unit_X))).congr fun ψ => fb_cswap hab hac hbc ψ

theorem isom_elem {n : ℕ} {ph : ℝ → ℂ} (hph : ∀ x, ‖ph x‖ = 1) (e : Elem) (hv : e.Valid n) :
    Isom n (e.unitary ph) := by
  cases e with
  | one k t => exact isom_app hv (unit_matrix1 k)
  | two k c t => exact isom_op2 hph k hv.1 hv.2.1 hv.2.2
  | three k a b c => exact isom_op3 k hv.1 hv.2.1 hv.2.2.1 hv.2.2.2.1 hv.2.2.2.2.1 hv.2.2.2.2.2
  | meas t => intro ψ χ; rfl
  | reset t => intro ψ χ; rfl

theorem inner_self (n : ℕ) (ψ : Vec) : inner n ψ ψ = (normSqN n ψ : ℝ) := by
  simp only [inner, normSqN, ofReal_sum]
  apply Finset.sum_congr rfl
  intro i _
  rw [mul_comm, mul_conj, normSq_eq_norm_sq]

theorem Isom.norm {n : ℕ} {U : Vec → Vec} (h : Isom n U) (ψ : Vec) : normSqN n (U ψ) = normSqN n ψ := by
  have := h ψ ψ
  rw [inner_self, inner_self] at this
  exact_mod_cast this

theorem norm_phSim (x : ℝ) : ‖phSim x‖ = 1 := norm_cis _
theorem norm_phDoc (x : ℝ) : ‖phDoc x‖ = 1 := by simp [phDoc]

theorem isom_unitaries {n : ℕ} {ph : ℝ → ℂ} (hph : ∀ x, ‖ph x‖ = 1) (es : List Elem)
    (hv : ∀ e ∈ es, e.Valid n) : Isom n (unitaries ph es) := by
  induction es with
  | nil => intro ψ χ; rfl
  | cons e es ih =>
    have := (ih (fun e he => hv e (by simp [he]))).comp (isom_elem hph e (hv e (by simp)))
    exact this

/-! ## Measurement probabilities -/

theorem prob_add (n t : ℕ) (ψ : Vec) : prob n t false ψ + prob n t true ψ = normSqN n ψ := by
  simp only [prob, normSqN]
  rw [← Finset.sum_filter_add_sum_filter_not (Finset.range (2 ^ n)) (fun i : ℕ => i.testBit t = false)]
  congr 1
  apply Finset.sum_congr _ (fun _ _ => rfl)
  apply Finset.filter_congr
  intro i _; simp

theorem prob_nonneg (n t : ℕ) (b : Bool) (ψ : Vec) : 0 ≤ prob n t b ψ :=
  Finset.sum_nonneg (fun i _ => by positivity)

theorem normSqN_collapse {n t : ℕ} {b : Bool} {ψ : Vec} (h : 0 < prob n t b ψ) :
    normSqN n (collapse n t b ψ) = 1 := by
  have : normSqN n (collapse n t b ψ) = (∑ i ∈ Finset.range (2 ^ n), if i.testBit t = b then ‖ψ i‖ ^ 2 else 0)
      / prob n t b ψ := by
    simp only [normSqN, collapse]
    rw [Finset.sum_div]
    apply Finset.sum_congr rfl
    intro i _
    by_cases hb : i.testBit t = b
    · simp only [hb, if_true, norm_div, div_pow, Complex.norm_real, Real.norm_eq_abs, sq_abs,
        Real.sq_sqrt h.le]
    · simp [hb]
  rw [this, ← Finset.sum_filter]
  exact div_self h.ne'

/-- Norm 1 and random numbers in `[0, 1)`: what holds of every state a run goes through. -/
def Good (n : ℕ) (s : MState) : Prop := normSqN n s.psi = 1 ∧ ∀ k, 0 ≤ s.rnd k ∧ s.rnd k < 1

theorem good_step {n : ℕ} {ph : ℝ → ℂ} (hph : ∀ x, ‖ph x‖ = 1) (e : Elem) (hv : e.Valid n) (s : MState)
    (hs : Good n s) : Good n (e.step ph n s) := by
  obtain ⟨h1, h2⟩ := hs
  have hu : ∀ e : Elem, e.Valid n → normSqN n (e.unitary ph s.psi) = 1 :=
    fun e hv => ((isom_elem hph e hv).norm _).trans h1
  have hp := prob_add n
  cases e with
  | one k t => exact ⟨hu _ hv, h2⟩
  | two k c t => exact ⟨hu _ hv, h2⟩
  | three k a b c => exact ⟨hu _ hv, h2⟩
  | meas t =>
    simp only [Elem.step]
    split_ifs with h
    · exact ⟨normSqN_collapse ((h2 0).1.trans_lt h), fun k => h2 (k + 1)⟩
    · refine ⟨normSqN_collapse ?_, fun k => h2 (k + 1)⟩
      have := hp t s.psi; have := (h2 0).2; linarith
  | reset t =>
    simp only [Elem.step]
    split_ifs with h
    · exact ⟨normSqN_collapse ((h2 0).1.trans_lt h), fun k => h2 (k + 1)⟩
    · refine ⟨?_, fun k => h2 (k + 1)⟩
      have := (isom_app (t := t) hv unit_X).norm (collapse n t true s.psi)
      rw [this]
      apply normSqN_collapse
      have := hp t s.psi; have := (h2 0).2; linarith

theorem good_steps {n : ℕ} {ph : ℝ → ℂ} (hph : ∀ x, ‖ph x‖ = 1) (es : List Elem) (hv : ∀ e ∈ es, e.Valid n)
    (s : MState) (hs : Good n s) : Good n (steps ph n es s) := by
  induction es generalizing s with
  | nil => exact hs
  | cons e es ih =>
    exact ih (fun e he => hv e (by simp [he])) _ (good_step hph e (hv e (by simp)) s hs)

theorem good_init (n : ℕ) (rnd : ℕ → ℝ) (h : ∀ k, 0 ≤ rnd k ∧ rnd k < 1) : Good n (initState rnd) := by
  refine ⟨?_, h⟩
  simp only [normSqN, initState]
  rw [Finset.sum_eq_single_of_mem 0 (Finset.mem_range.2 (Nat.two_pow_pos n))]
  · simp
  · intro i _ hi; simp [hi]

end

end Spec
