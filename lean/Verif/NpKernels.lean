import Verif.Numpy
import Verif.NpArrayLemmas
import Verif.FallbackGates

/-! Lemmas: the loop body of each numpy gate method applies the textbook matrix. -/

set_option linter.unusedSimpArgs false
set_option linter.unusedVariables false

namespace Blueqat

open Spec

noncomputable section

theorem shl1_nat (t : ℕ) : shl1 (t : ℤ) = .ok (2 ^ t) := by simp [shl1]

theorem sel_t1 {n t : ℕ} (ht : t < n) (ψ : Vec) :
    sel (vec n ψ) (maskOf n fun i => i.testBit t) =
      ((List.range (2 ^ n)).filter (fun i => !i.testBit t)).map (fun i => ψ (flipBit t i)) := by
  simpa using sel_one_flip n t ht (fun _ => true) (fun _ => rfl) ψ

theorem sel_t0 {n t : ℕ} (ht : t < n) (ψ : Vec) :
    sel (vec n ψ) (maskOf n fun i => !i.testBit t) =
      ((List.range (2 ^ n)).filter (fun i => i.testBit t)).map (fun i => ψ (flipBit t i)) := by
  simpa using sel_zero_flip n t ht (fun _ => true) (fun _ => rfl) ψ

theorem ok_bind {α β : Type} (a : α) (f : α → Except PyErr β) : (Except.ok a >>= f) = f a := rfl
theorem pure_ok {α : Type} (a : α) : (pure a : Except PyErr α) = .ok a := rfl

/-- A buffer is the array of some amplitudes. -/
theorem buf_vec {n : ℕ} {b : Arr} (h : b.length = 2 ^ n) : ∃ β : Vec, b = vec n β := ⟨_, vec_getD n b h⟩

theorem bodyX_vec {n t : ℕ} (ht : t < n) (ψ : Vec) (b : Arr) (hb : b.length = 2 ^ n) :
    bodyX n t (vec n ψ, b) = .ok (vec n (app mX t ψ), vec n ψ) := by
  obtain ⟨β, rfl⟩ := buf_vec hb
  simp only [bodyX, shl1_nat, ok_bind, maskEq_eq, maskNe_eq]
  rw [sel_t1 ht, sel_t0 ht, asg_vec, ok_bind, asg_vec, ok_bind, pure_ok]
  congr 2
  apply vec_congr; intro i hi
  by_cases h : i.testBit t <;> simp [h, app, mX]

theorem bodyY_vec {n t : ℕ} (ht : t < n) (ψ : Vec) (b : Arr) (hb : b.length = 2 ^ n) :
    bodyY n t (vec n ψ, b) = .ok (vec n (app mY t ψ), vec n ψ) := by
  obtain ⟨β, rfl⟩ := buf_vec hb
  simp only [bodyY, shl1_nat, ok_bind, maskEq_eq, maskNe_eq]
  rw [sel_t1 ht, sel_t0 ht, smulA_map, smulA_map, asg_vec, ok_bind, asg_vec, ok_bind, pure_ok]
  congr 2
  apply vec_congr; intro i hi
  by_cases h : i.testBit t <;> simp [h, app, mY]

theorem bodyRot_vec {n t : ℕ} (M : M2) (ht : t < n) (ψ : Vec) (b : Arr) (hb : b.length = 2 ^ n) :
    bodyRot M.a M.b M.c M.d n t (vec n ψ, b) = .ok (vec n (app M t ψ), vec n ψ) := by
  obtain ⟨β, rfl⟩ := buf_vec hb
  simp only [bodyRot, shl1_nat, ok_bind, maskEq_eq, maskNe_eq]
  have e0 : addA (smulA M.a (sel (vec n ψ) (maskOf n fun i => !i.testBit t)))
      (smulA M.b (sel (vec n ψ) (maskOf n fun i => i.testBit t))) =
      .ok (((List.range (2 ^ n)).filter (fun i => !i.testBit t)).map fun i => M.a * ψ i + M.b * ψ (flipBit t i)) := by
    rw [sel_vec, sel_t1 ht, smulA_map, smulA_map, addA_map]
  have e1 : addA (smulA M.c (sel (vec n ψ) (maskOf n fun i => !i.testBit t)))
      (smulA M.d (sel (vec n ψ) (maskOf n fun i => i.testBit t))) =
      .ok (((List.range (2 ^ n)).filter (fun i => i.testBit t)).map fun i => M.c * ψ (flipBit t i) + M.d * ψ i) := by
    rw [sel_t0 ht, sel_vec, smulA_map, smulA_map, addA_map]
  rw [e0, ok_bind, asg_vec, ok_bind, e1, ok_bind, asg_vec, ok_bind, pure_ok]
  congr 2
  apply vec_congr; intro i hi
  by_cases h : i.testBit t <;> simp [h, app]

theorem bodyH_vec {n t : ℕ} (ht : t < n) (ψ : Vec) (b : Arr) (hb : b.length = 2 ^ n) :
    bodyH n t (vec n ψ, b) = .ok (vec n (app mH t ψ), vec n ψ) := by
  obtain ⟨β, rfl⟩ := buf_vec hb
  simp only [bodyH, shl1_nat, ok_bind, maskEq_eq, maskNe_eq]
  have e0 : addA (sel (vec n ψ) (maskOf n fun i => !i.testBit t))
      (sel (vec n ψ) (maskOf n fun i => i.testBit t)) =
      .ok (((List.range (2 ^ n)).filter (fun i => !i.testBit t)).map fun i => ψ i + ψ (flipBit t i)) := by
    rw [sel_vec, sel_t1 ht, addA_map]
  have e1 : subA (sel (vec n ψ) (maskOf n fun i => !i.testBit t))
      (sel (vec n ψ) (maskOf n fun i => i.testBit t)) =
      .ok (((List.range (2 ^ n)).filter (fun i => i.testBit t)).map fun i => ψ (flipBit t i) - ψ i) := by
    rw [sel_t0 ht, sel_vec, subA_map]
  rw [e0, ok_bind, asg_vec, ok_bind, e1, ok_bind, asg_vec, ok_bind, mulS_vec, pure_ok]
  congr 2
  apply vec_congr; intro i hi
  by_cases h : i.testBit t <;> simp [h, app, mH] <;> ring

theorem bodyU3_vec {n t : ℕ} (M : M2) (ht : t < n) (ψ : Vec) (b : Arr) :
    bodyU3 M.a (-M.b) M.c M.d n t (vec n ψ, b) = .ok (vec n (app M t ψ), vec n ψ) := by
  simp only [bodyU3, shl1_nat, ok_bind, maskEq_eq, maskNe_eq]
  rw [sel_vec, mulS_map, asg_vec, ok_bind, sel_vec, sel_t1 ht, mulS_map, subA_map, ok_bind, asg_vec, ok_bind]
  have e1 : mulS (((List.range (2 ^ n)).filter fun i => !i.testBit t).map ψ) M.c =
      ((List.range (2 ^ n)).filter fun i => i.testBit t).map fun i => ψ (flipBit t i) * M.c := by
    rw [← sel_vec, sel_t0 ht, mulS_map]
  have e2 : mulS (((List.range (2 ^ n)).filter fun i => !i.testBit t).map fun i => ψ (flipBit t i)) M.d =
      ((List.range (2 ^ n)).filter fun i => i.testBit t).map fun i => ψ i * M.d := by
    rw [← sel_t1 ht, sel_vec, mulS_map]
  rw [e1, e2, asg_vec, ok_bind, sel_vec, addA_map, ok_bind, asg_vec, ok_bind, pure_ok]
  congr 2
  apply vec_congr; intro i hi
  by_cases h : i.testBit t <;> simp [h, app] <;> ring

theorem bodyPhase_vec {n t : ℕ} (z : ℂ) (ψ : Vec) :
    bodyPhase z n t (vec n ψ) = .ok (vec n (app ⟨1, 0, 0, z⟩ t ψ)) := by
  simp only [bodyPhase, shl1_nat, ok_bind, maskNe_eq, mulAt_vec, pure_ok]
  congr 1
  apply vec_congr; intro i hi
  by_cases h : i.testBit t <;> simp [h, app, mul_comm]

theorem bodyRZ_vec {n t : ℕ} (z w : ℂ) (ψ : Vec) :
    bodyRZ z w n t (vec n ψ) = .ok (vec n (app ⟨z, 0, 0, w⟩ t ψ)) := by
  simp only [bodyRZ, shl1_nat, ok_bind, maskNe_eq, maskEq_eq, mulAt_vec, pure_ok]
  congr 1
  apply vec_congr; intro i hi
  by_cases h : i.testBit t <;> simp [h, app, mul_comm]

theorem bodyCPhase_vec {n c t : ℕ} (z : ℂ) (ψ : Vec) :
    bodyCPhase z n c t (vec n ψ) = .ok (vec n (ctrl c (app ⟨1, 0, 0, z⟩ t) ψ)) := by
  simp only [bodyCPhase, shl1_nat, ok_bind, maskNe_eq, maskAnd_eq, mulAt_vec, pure_ok]
  congr 1
  apply vec_congr; intro i hi
  by_cases hc : i.testBit c <;> by_cases h : i.testBit t <;> simp [h, hc, app, ctrl, mul_comm]

theorem bodyCRZ_vec {n c t : ℕ} (z w : ℂ) (ψ : Vec) :
    bodyCRZ z w n c t (vec n ψ) = .ok (vec n (ctrl c (app ⟨z, 0, 0, w⟩ t) ψ)) := by
  simp only [bodyCRZ, shl1_nat, ok_bind, maskNe_eq, maskEq_eq, maskAnd_eq, mulAt_vec, pure_ok]
  congr 1
  apply vec_congr; intro i hi
  by_cases hc : i.testBit c <;> by_cases h : i.testBit t <;> simp [h, hc, app, ctrl, mul_comm]

theorem bodyCX_vec {n c t : ℕ} (hct : c ≠ t) (ht : t < n) (ψ : Vec) (b : Arr) :
    bodyCX n c t (vec n ψ, b) = .ok (vec n (ctrl c (app mX t) ψ), vec n ψ) := by
  have hc : ∀ i, (flipBit t i).testBit c = i.testBit c := testBit_flipBit_ne hct.symm
  simp only [bodyCX, shl1_nat, ok_bind, maskEq_eq, maskNe_eq, maskAnd_eq]
  rw [sel_one_flip n t ht (fun i => i.testBit c) hc, sel_zero_flip n t ht (fun i => i.testBit c) hc,
    asg_vec, ok_bind, asg_vec, ok_bind, pure_ok]
  congr 2
  apply vec_congr; intro i hi
  by_cases hc : i.testBit c <;> by_cases h : i.testBit t <;> simp [h, hc, app, ctrl, mX]

theorem bodyCRot_vec {n c t : ℕ} (M : M2) (hct : c ≠ t) (ht : t < n) (ψ : Vec) (b : Arr) :
    bodyCRot M.a M.b M.c M.d n c t (vec n ψ, b) = .ok (vec n (ctrl c (app M t) ψ), vec n ψ) := by
  have hc : ∀ i, (flipBit t i).testBit c = i.testBit c := testBit_flipBit_ne hct.symm
  simp only [bodyCRot, shl1_nat, ok_bind, maskEq_eq, maskNe_eq, maskAnd_eq]
  have c0 : (fun i : ℕ => !i.testBit t && i.testBit c) = fun i => i.testBit c && !i.testBit t := by
    funext i; exact Bool.and_comm _ _
  have c1 : (fun i : ℕ => i.testBit t && i.testBit c) = fun i => i.testBit c && i.testBit t := by
    funext i; exact Bool.and_comm _ _
  rw [c0, c1]
  have e0 : addA (smulA M.a (sel (vec n ψ) (maskOf n fun i => i.testBit c && !i.testBit t)))
      (smulA M.b (sel (vec n ψ) (maskOf n fun i => i.testBit c && i.testBit t))) =
      .ok (((List.range (2 ^ n)).filter (fun i => i.testBit c && !i.testBit t)).map
        fun i => M.a * ψ i + M.b * ψ (flipBit t i)) := by
    rw [sel_vec, sel_one_flip n t ht (fun i => i.testBit c) hc, smulA_map, smulA_map, addA_map]
  have e1 : addA (smulA M.c (sel (vec n ψ) (maskOf n fun i => i.testBit c && !i.testBit t)))
      (smulA M.d (sel (vec n ψ) (maskOf n fun i => i.testBit c && i.testBit t))) =
      .ok (((List.range (2 ^ n)).filter (fun i => i.testBit c && i.testBit t)).map
        fun i => M.c * ψ (flipBit t i) + M.d * ψ i) := by
    rw [sel_zero_flip n t ht (fun i => i.testBit c) hc, sel_vec, smulA_map, smulA_map, addA_map]
  rw [e0, ok_bind, asg_vec, ok_bind, e1, ok_bind, asg_vec, ok_bind, pure_ok]
  congr 2
  apply vec_congr; intro i hi
  by_cases hc : i.testBit c <;> by_cases h : i.testBit t <;> simp [h, hc, app, ctrl]

/-! ## The coefficients -/

theorem cexp_eq (x : ℝ) : cexp x = cis x := by
  rw [cis_eq]; apply Complex.ext <;> simp [cexp, -Complex.ofReal_cos, -Complex.ofReal_sin]

theorem cexpNeg_eq (x : ℝ) : cexpNeg x = cis (-x) := by
  rw [cis_eq]; apply Complex.ext <;> simp [cexpNeg, -Complex.ofReal_cos, -Complex.ofReal_sin]

theorem half (θ : ℝ) : θ * 0.5 = θ / 2 := by norm_num; ring

theorem t_factor : (⟨1 / √2, 1 / √2⟩ : ℂ) = cis (Real.pi / 4) := by
  rw [cis_eq, Real.cos_pi_div_four, Real.sin_pi_div_four]
  have h : (1 : ℝ) / √2 = √2 / 2 := by
    have : (√2 : ℝ) * √2 = 2 := Real.mul_self_sqrt (by norm_num)
    have h0 : (√2 : ℝ) ≠ 0 := by positivity
    field_simp; linarith
  rw [h]
  generalize √2 / 2 = r
  apply Complex.ext <;> simp

/-! ## Loops -/

/-- A loop whose body refines a step of the specification refines the fold. -/
theorem foldlM_refine {α σ τ : Type} (body : α → σ → Except PyErr σ) (f : α → τ → τ) (Rel : σ → τ → Prop)
    (L : List α) (h : ∀ a ∈ L, ∀ s t, Rel s t → ∃ s', body a s = .ok s' ∧ Rel s' (f a t)) :
    ∀ s t, Rel s t → ∃ s', L.foldlM (fun s a => body a s) s = .ok s' ∧ Rel s' (L.foldl (fun t a => f a t) t) := by
  induction L with
  | nil => intro s t hr; exact ⟨s, rfl, hr⟩
  | cons a L ih =>
    intro s t hr
    obtain ⟨s1, h1, hr1⟩ := h a (by simp) s t hr
    obtain ⟨s2, h2, hr2⟩ := ih (fun b hb => h b (by simp [hb])) s1 _ hr1
    refine ⟨s2, ?_, hr2⟩
    simp only [List.foldlM_cons, h1]
    exact h2

end

end Blueqat
