import Verif.FloatRun

/-! Lemmas: the simulator in rounded arithmetic stays near the machine. -/

set_option linter.unusedSimpArgs false
set_option linter.unusedVariables false

namespace Spec

open Blueqat

noncomputable section

variable {F : FloatOps} {ε ν Θ u : ℝ}

/-! ## Measurement and reset -/

/-- Rounding does not change the comparison of a clear measurement. -/
theorem clear_iff {r p q E : ℝ} (h1 : |q - p| ≤ E) (h2 : E < |r - p|) : r < q ↔ r < p := by
  rcases lt_or_ge r p with h | h
  · rw [abs_of_neg (by linarith)] at h2
    have := abs_le.1 h1
    exact ⟨fun _ => h, fun _ => by linarith⟩
  · rw [abs_of_nonneg (by linarith)] at h2
    have := abs_le.1 h1
    exact ⟨fun h' => by linarith, fun h' => by linarith⟩

/-- What measuring and resetting have in common: both branches of the comparison. -/
theorem branch_near {n : ℕ} (hF : Accurate F n ε ν) (hν : 0 ≤ ν) (hS : Small ε Θ u) {t : ℕ} {φ : Vec} {s : MState} {B : ℝ}
    (h : gap n φ s.psi ≤ B) (hg : Good n s) (hc : (Elem.meas t).Clear ε ν n s B) :
    let q := F.normPow2 (sel (vec n φ) (maskOf n fun i => !i.testBit t))
    (s.rnd 0 < q ↔ s.rnd 0 < prob n t false s.psi) ∧
    (s.rnd 0 < prob n t false s.psi →
      gap n (fun i => F.div (part t false φ i) (F.sqrt q)) (collapse n t false s.psi) ≤
        8 * probErr ε ν B / resultProb n t s) ∧
    (¬ s.rnd 0 < prob n t false s.psi →
      gap n (fun i => F.div (part t true φ i) (F.sqrt (F.rsub 1 q))) (collapse n t true s.psi) ≤
        8 * probErr ε ν B / resultProb n t s) := by
  intro q
  obtain ⟨h1, h2⟩ := hg
  obtain ⟨hc1, hc2⟩ := hc
  have hB := (gap_nonneg n φ s.psi).trans h
  have hε := hS.eps
  have hε8 : 8 * ε ≤ 1 := by have := hS.eps_le; have := hS.le; have := hS.u_nn; linarith
  obtain ⟨e1, e2, e3, e4⟩ := probErr_ge hε hν hB
  have hp0 := pzero_near hF hν (t := t) h h1
  have hsum : prob n t false s.psi + prob n t true s.psi = 1 := by rw [prob_add, h1]
  refine ⟨clear_iff (hp0.trans e1) hc1, fun hr => ?_, fun hr => ?_⟩
  · have hrp : resultProb n t s = prob n t false s.psi := by simp only [resultProb, if_pos hr]
    rw [hrp] at hc2 ⊢
    exact collapse_near hF hε hε8 h h1 (hp0.trans e1) hc2 (by have := (h2 0).1; linarith) e2 e3
  · have hrp : resultProb n t s = prob n t true s.psi := by simp only [resultProb, if_neg hr]
    rw [hrp] at hc2 ⊢
    refine collapse_near hF hε hε8 h h1 ?_ hc2 (by have := (h2 0).2; push Not at hr; linarith) e2 e3
    have := pone_near hF hε hp0 hsum (prob_nonneg _ _ _ _) (prob_nonneg _ _ _ _)
    refine this.trans (le_of_eq ?_)
    rw [probErr]; ring

theorem bodyMeasure_float {n : ℕ} (hF : Accurate F n ε ν) (hν : 0 ≤ ν) (hS : Small ε Θ u) {t : ℕ} (ht : t < n) {ctx : NpCtx}
    {s : MState} {B : ℝ} (hR : FRel n ctx s B) (hc : (Elem.meas t).Clear ε ν n s B) :
    ∃ ctx', flBodyMeasure F n (t : ℤ) ctx = .ok ctx' ∧
      FRel n ctx' ((Elem.meas t).step phSim n s) ((Elem.meas t).errStep ε ν Θ n s B) := by
  have hg := good_step norm_phSim (.meas t) ht s hR.good
  obtain ⟨φ, hφ, hgap⟩ := hR.qubits
  obtain ⟨hiff, hb0, hb1⟩ := branch_near hF hν hS hgap hR.good hc
  simp only [flBodyMeasure, shl1_nat, ok_bind, hφ, maskEq_eq, maskNe_eq, hR.rnd, hR.cregs]
  simp only [Elem.step, Elem.errStep] at hg ⊢
  by_cases h : s.rnd 0 < prob n t false s.psi
  · rw [if_pos (hiff.2 h)]
    simp only [h, if_true] at hg ⊢
    have := setCreg_eq ht s.creg false
    simp only [Bool.toNat_false] at this
    rw [this, ok_bind, pure_ok]
    refine ⟨_, rfl, ⟨_, ?_, hb0 h⟩, hR.buf, rfl, rfl, hg⟩
    simp only [setAt_vec, flDivS_vec]
    apply vec_congr; intro i hi
    simp only [part]
    by_cases hb : i.testBit t <;> simp [hb]
  · rw [if_neg (fun h' => h (hiff.1 h'))]
    simp only [h, if_false] at hg ⊢
    have := setCreg_eq ht s.creg true
    simp only [Bool.toNat_true] at this
    rw [this, ok_bind, pure_ok]
    refine ⟨_, rfl, ⟨_, ?_, hb1 h⟩, hR.buf, rfl, rfl, hg⟩
    simp only [setAt_vec, flDivS_vec]
    apply vec_congr; intro i hi
    simp only [part]
    by_cases hb : i.testBit t <;> simp [hb]

theorem bodyReset_float {n : ℕ} (hF : Accurate F n ε ν) (hν : 0 ≤ ν) (hS : Small ε Θ u) {t : ℕ} (ht : t < n) {ctx : NpCtx}
    {s : MState} {B : ℝ} (hR : FRel n ctx s B) (hc : (Elem.reset t).Clear ε ν n s B) :
    ∃ ctx', flBodyReset F n (t : ℤ) ctx = .ok ctx' ∧
      FRel n ctx' ((Elem.reset t).step phSim n s) ((Elem.reset t).errStep ε ν Θ n s B) := by
  have hg := good_step norm_phSim (.reset t) ht s hR.good
  obtain ⟨φ, hφ, hgap⟩ := hR.qubits
  obtain ⟨hiff, hb0, hb1⟩ := branch_near hF hν hS hgap hR.good hc
  simp only [flBodyReset, shl1_nat, ok_bind, hφ, maskEq_eq, maskNe_eq, hR.rnd]
  simp only [Elem.step, Elem.errStep] at hg ⊢
  by_cases h : s.rnd 0 < prob n t false s.psi
  · rw [if_pos (hiff.2 h)]
    simp only [h, if_true] at hg ⊢
    rw [pure_ok]
    refine ⟨_, rfl, ⟨_, ?_, hb0 h⟩, hR.buf, hR.cregs, rfl, hg⟩
    simp only [setAt_vec, flDivS_vec]
    apply vec_congr; intro i hi
    simp only [part]
    by_cases hb : i.testBit t <;> simp [hb]
  · rw [if_neg (fun h' => h (hiff.1 h'))]
    simp only [h, if_false] at hg ⊢
    rw [sel_t1 ht, asg_vec, ok_bind, pure_ok]
    refine ⟨_, rfl, ⟨app mX t (fun i => F.div (part t true φ i)
      (F.sqrt (F.rsub 1 (F.normPow2 (sel (vec n φ) (maskOf n fun i => !i.testBit t)))))), ?_, ?_⟩,
      hR.buf, hR.cregs, rfl, hg⟩
    · simp only [setAt_vec, flDivS_vec]
      apply vec_congr; intro i hi
      simp only [part, app, mX]
      by_cases hb : i.testBit t <;> simp [hb]
    · exact (gap_app ht (M := mX) (unit_matrix1 .x) _ _).le.trans (hb1 h)

/-- A loop over targets whose body keeps the relation for clear operations. -/
theorem loop_clear {n : ℕ} (body : ℤ → NpCtx → Except PyErr NpCtx) (e : ℕ → Elem)
    (hb : ∀ t < n, ∀ ctx s B, FRel n ctx s B → (e t).Clear ε ν n s B →
      ∃ ctx', body (t : ℤ) ctx = .ok ctx' ∧ FRel n ctx' ((e t).step phSim n s) ((e t).errStep ε ν Θ n s B))
    (L : List ℕ) (hL : ∀ t ∈ L, t < n) : ∀ ctx s B, FRel n ctx s B → AllClear ε ν Θ n (L.map e) s B →
      ∃ ctx', (L.map fun q : ℕ => (q : ℤ)).foldlM (fun s t => body t s) ctx = .ok ctx' ∧
        FRel n ctx' (steps phSim n (L.map e) s) (errBound ε ν Θ n (L.map e) s B) := by
  induction L with
  | nil => intro ctx s B hR _; exact ⟨ctx, rfl, hR⟩
  | cons t L ih =>
    rintro ctx s B hR ⟨h1, h2⟩
    obtain ⟨c1, h3, h4⟩ := hb t (hL t (by simp)) ctx s B hR h1
    obtain ⟨c2, h5, h6⟩ := ih (fun t h => hL t (by simp [h])) c1 _ _ h4 h2
    refine ⟨c2, ?_, h6⟩
    simp only [List.map_cons, List.foldlM_cons, h3]; exact h5

theorem measure_float {n : ℕ} (hF : Accurate F n ε ν) (hν : 0 ≤ ν) (hS : Small ε Θ u)  {T : Targets} {es : List Elem}
    (hd : GateDenotes n (.measure T) es) (hv : ∀ e ∈ es, e.Valid n) {ctx : NpCtx} {s : MState} {B : ℝ}
    (hR : FRel n ctx s B) (hc : AllClear ε ν Θ n es s B) :
    ∃ ctx', flGateMeasure F n T ctx = .ok ctx' ∧ FRel n ctx' (steps phSim n es s) (errBound ε ν Θ n es s B) := by
  obtain ⟨L, hL, rfl⟩ := hd
  rw [← slicing_eq_iff] at hL
  obtain ⟨c, h1, h2⟩ := loop_clear (flBodyMeasure F n) (fun t => .meas t)
    (fun t ht ctx s B hR hc => bodyMeasure_float hF hν hS ht hR hc) L
    (fun t ht => hv (.meas t) (List.mem_map.2 ⟨t, ht, rfl⟩)) ctx s B hR hc
  exact ⟨{ c with saveCache := false }, by simp only [flGateMeasure, forGen, hL, h1], h2.save false⟩

theorem reset_float {n : ℕ} (hF : Accurate F n ε ν) (hν : 0 ≤ ν) (hS : Small ε Θ u)  {T : Targets} {es : List Elem}
    (hd : GateDenotes n (.reset T) es) (hv : ∀ e ∈ es, e.Valid n) {ctx : NpCtx} {s : MState} {B : ℝ}
    (hR : FRel n ctx s B) (hc : AllClear ε ν Θ n es s B) :
    ∃ ctx', flGateReset F n T ctx = .ok ctx' ∧ FRel n ctx' (steps phSim n es s) (errBound ε ν Θ n es s B) := by
  obtain ⟨L, hL, rfl⟩ := hd
  rw [← slicing_eq_iff] at hL
  obtain ⟨c, h1, h2⟩ := loop_clear (flBodyReset F n) (fun t => .reset t)
    (fun t ht ctx s B hR hc => bodyReset_float hF hν hS ht hR hc) L
    (fun t ht => hv (.reset t) (List.mem_map.2 ⟨t, ht, rfl⟩)) ctx s B hR hc
  exact ⟨{ c with saveCache := false }, by simp only [flGateReset, forGen, hL, h1], h2.save false⟩

/-! ## Three-qubit gates -/

theorem ccz_float {n : ℕ} (hF : Accurate F n ε ν) (hS : Small ε Θ u) {a b c : ℕ} (hv : (Elem.three .ccz a b c).Valid n)
    {ctx : NpCtx} {s : MState} {B : ℝ} (hR : FRel n ctx s B) :
    ∃ ctx', flGateCCZ F n (.tup [.atom (.int a), .atom (.int b), .atom (.int c)]) ctx = .ok ctx' ∧
      FRel n ctx' (steps phSim n [.three .ccz a b c] s) (errBound ε ν Θ n [.three .ccz a b c] s B) := by
  obtain ⟨φ, hφ, hgap⟩ := hR.qubits
  refine ⟨_, flGateCCZ_vec F φ ctx hφ, hR.of_psi (b := ctx.buf) (m := 1) (by simp [Elem.IsUnitary])
    (by simpa using hv) rfl rfl ?_ hR.buf⟩
  rw [passErr_eq hS, pow_one]
  refine pass_near (by have := hS.u_nn; linarith) hgap hR.good.1
    (K := ctrl a (ctrl b (appF (fun x _ => x) (fun _ y => F.mul y (-1)) c))) (U := op3 .ccz a b c) ?_
    (gap_elem norm_phSim (.three .ccz a b c) hv φ s.psi)
  exact (gap_ctrl _ _ _ _ _).trans ((gap_ctrl _ _ _ _ _).trans
    (gap_fphase hF hS hv.2.2.1 (w := -1) (by simp) (by have := hS.u_nn; simp; linarith) φ))

theorem h_float {n : ℕ} (hF : Accurate F n ε ν) (hS : Small ε Θ u) 
    {T : Targets} {es : List Elem} (hd : GateDenotes n (.g1 .h T) es) (hv : ∀ e ∈ es, e.Valid n) (hA : AnglesLE Θ es)
    {ctx : NpCtx} {s : MState} {B : ℝ} (hR : FRel n ctx s B) :
    ∃ ctx', flGateH F n T ctx = .ok ctx' ∧ FRel n ctx' (steps phSim n es s) (errBound ε ν Θ n es s B) :=
  swapLoop1_float hS (flBodyH F) .h _ (fun t => rfl) (fun t ht ψ b hb => flBodyH_vec F ht ψ b hb)
    (fun t ht _ ψ => gap_fH hF hS ht ψ) hd hv hA hR

theorem ccx_float {n : ℕ} (hF : Accurate F n ε ν) (hS : Small ε Θ u) {a b c : ℕ} (hv : (Elem.three .ccx a b c).Valid n)
    {ctx : NpCtx} {s : MState} {B : ℝ} (hR : FRel n ctx s B) :
    ∃ ctx', flGateCCX F n (.tup [.atom (.int a), .atom (.int b), .atom (.int c)]) ctx = .ok ctx' ∧
      FRel n ctx' (steps phSim n [.three .ccx a b c] s) (errBound ε ν Θ n [.three .ccx a b c] s B) := by
  have hdh : GateDenotes n (.g1 .h (Item.atom (.int (c : ℤ))).toTargets) [.one .h c] := gateDenotes_on1 n .h c
  have hvh : ∀ e ∈ [Elem.one .h c], e.Valid n := by
    intro e he; rw [List.mem_singleton.1 he]; exact hv.2.2.1
  have hAh : AnglesLE Θ [Elem.one .h c] := by simp [AnglesLE, Elem.angles]
  obtain ⟨c1, h1, r1⟩ := h_float (ν := ν) hF hS hdh hvh hAh hR
  obtain ⟨c2, h2, r2⟩ := ccz_float hF hS (a := a) (b := b) (c := c) hv r1
  obtain ⟨c3, h3, r3⟩ := h_float (ν := ν) hF hS hdh hvh hAh r2
  have hu : ∀ e ∈ ([.one .h c, .three .ccz a b c, .one .h c] : List Elem), e.IsUnitary := by simp [Elem.IsUnitary]
  have hu' : ∀ e ∈ ([.three .ccx a b c] : List Elem), e.IsUnitary := by simp [Elem.IsUnitary]
  refine ⟨c3, ?_, ?_⟩
  · simp only [flGateCCX, unpack3, ok_bind]
    rw [h1, ok_bind, h2, ok_bind, h3]
  · have r3 : FRel n c3 (steps phSim n [.one .h c, .three .ccz a b c, .one .h c] s)
      (errBound ε ν Θ n [.one .h c, .three .ccz a b c, .one .h c] s B) := r3
    rw [errBound_unitary _ _ _ _ _ hu, steps_unitary _ _ _ hu] at r3
    rw [errBound_unitary _ _ _ _ _ hu', steps_unitary _ _ _ hu']
    have e : unitaries phSim [.three .ccx a b c] s.psi = unitaries phSim [.one .h c, .three .ccz a b c, .one .h c] s.psi :=
      (ccx_via_ccz hv.2.2.2.2.1 hv.2.2.2.2.2 s.psi).symm
    rw [e]
    exact r3

/-! ## All native gates -/

theorem norm_isin_le (x : ℝ) : ‖-Complex.I * (Real.sin x : ℂ)‖ ≤ 1 := by
  rw [norm_mul, norm_neg, Complex.norm_I, one_mul]; exact norm_sin_le x

theorem flAction_g2 {n : ℕ} (hF : Accurate F n ε ν) (hS : Small ε Θ u)  (k : G2) (T : Targets)
    (a : NpCtx → Except PyErr NpCtx) (es : List Elem)
    (ha : flAction F n (.g2 k T) = some a) (hd : GateDenotes n (.g2 k T) es) (hv : ∀ e ∈ es, e.Valid n) (hA : AnglesLE Θ es)
    (ctx : NpCtx) (s : MState) (B : ℝ) (hR : FRel n ctx s B) :
    ∃ ctx', a ctx = .ok ctx' ∧ FRel n ctx' (steps phSim n es s) (errBound ε ν Θ n es s B) := by
  have hu := hS.u_nn
  have n1 : ∀ x, ‖cis x‖ ≤ 1 := fun x => (norm_cis x).le
  have w : ∀ {a b : ℂ}, ‖a - b‖ ≤ 2 * u → ‖a - b‖ ≤ 18 * u := fun h => h.trans (by linarith)
  have w4 : ∀ {a b : ℂ}, ‖a - b‖ ≤ 4 * u → ‖a - b‖ ≤ 18 * u := fun h => h.trans (by linarith)
  cases k <;> simp only [flAction, Option.some.injEq, reduceCtorEq] at ha <;> subst ha
  · refine swapLoop2_float hS _ _ _ (fun _ _ => rfl) (fun c t hc ht h ψ b hb => bodyCX_vec h ht ψ b)
      (fun c t hc ht h _ ψ => ?_) hd hv hA hR
    simp only [op2]; rw [gap_self]; have := Real.sqrt_nonneg (normSqN n ψ); positivity
  · refine inPlaceLoop2_float hS _ _ _ (fun _ _ => rfl) (fun c t hc ht h ψ => flBodyCPhase_vec F (-1) ψ)
      (fun c t hc ht h _ ψ => ?_) hd hv hA hR
    simp only [op2]
    exact (gap_ctrl _ _ _ _ _).trans (gap_fphase hF hS ht (w := -1) (by simp) (by simp; linarith) ψ)
  · rename_i θ
    refine swapLoop2_float hS _ _ _ (fun _ _ => rfl) (fun c t hc ht h ψ b hb => flBodyCRot_vec F _ _ _ _ h ht ψ b)
      (fun c t hc ht h hx ψ => ?_) hd hv hA hR
    simp only [op2]
    refine (gap_ctrl _ _ _ _ _).trans ?_
    have hθ : |θ| ≤ Θ := hx θ (by simp [Elem.angles])
    exact gap_rot hF hS ht (M := mRX θ) (norm_cos_le _) (norm_isin_le _)
      (norm_isin_le _) (norm_cos_le _)
      (w (coshalf_near hF hS hθ)) (w4 (isin_near hF hS hθ)) (w4 (isin_near hF hS hθ)) (w (coshalf_near hF hS hθ)) ψ
  · rename_i θ
    refine swapLoop2_float hS _ _ _ (fun _ _ => rfl) (fun c t hc ht h ψ b hb => flBodyCRot_vec F _ _ _ _ h ht ψ b)
      (fun c t hc ht h hx ψ => ?_) hd hv hA hR
    simp only [op2]
    refine (gap_ctrl _ _ _ _ _).trans ?_
    have hθ : |θ| ≤ Θ := hx θ (by simp [Elem.angles])
    have hs := w (sinhalf_near hF hS hθ)
    exact gap_rot hF hS ht (M := mRY θ) (norm_cos_le _) (by rw [mRY, norm_neg]; exact norm_sin_le _)
      (norm_sin_le _) (norm_cos_le _)
      (w (coshalf_near hF hS hθ)) (by rw [mRY, ← neg_sub', norm_neg]; exact hs) hs (w (coshalf_near hF hS hθ)) ψ
  · rename_i θ
    refine inPlaceLoop2_float hS _ _ _ (fun _ _ => rfl) (fun c t hc ht h ψ => flBodyCRZ_vec F _ _ ψ)
      (fun c t hc ht h hx ψ => ?_) hd hv hA hR
    simp only [op2]
    refine (gap_ctrl _ _ _ _ _).trans ?_
    have hθ : |θ| ≤ Θ := hx θ (by simp [Elem.angles])
    exact gap_fdiag hF hS ht (n1 _) (n1 _) (w (cexpNeghalf_near hF hS hθ)) (w (cexphalf_near hF hS hθ)) ψ
  · rename_i θ
    refine inPlaceLoop2_float hS _ _ _ (fun _ _ => rfl) (fun c t hc ht h ψ => flBodyCPhase_vec F _ ψ)
      (fun c t hc ht h hx ψ => ?_) hd hv hA hR
    simp only [op2]
    refine (gap_ctrl _ _ _ _ _).trans ?_
    have hθ : |θ| ≤ Θ := hx θ (by simp [Elem.angles])
    exact gap_fphase hF hS ht (n1 _) (w (cexppar_near hF hS hθ)) ψ

theorem t_near {m : ℕ} (hF : Accurate F m ε ν) (hS : Small ε Θ u) :
    ‖(⟨F.sqrt2Inv, F.sqrt2Inv⟩ : ℂ) - cis (Real.pi / 4)‖ ≤ 2 * u := by
  have h := hF.sqrt2Inv
  have e : (⟨F.sqrt2Inv, F.sqrt2Inv⟩ : ℂ) - cis (Real.pi / 4) =
      ((F.sqrt2Inv - 1 / Real.sqrt 2 : ℝ) : ℂ) + ((F.sqrt2Inv - 1 / Real.sqrt 2 : ℝ) : ℂ) * Complex.I := by
    rw [← t_factor]
    apply Complex.ext <;> simp [Real.sqrt_div_self']
  rw [e]
  refine (norm_add_le _ _).trans ?_
  rw [norm_mul, Complex.norm_I, mul_one, Complex.norm_real, Real.norm_eq_abs]
  have := hS.eps_le; linarith

theorem flAction_g1 {n : ℕ} (hF : Accurate F n ε ν) (hS : Small ε Θ u)  (k : G1) (T : Targets)
    (a : NpCtx → Except PyErr NpCtx) (es : List Elem)
    (ha : flAction F n (.g1 k T) = some a) (hd : GateDenotes n (.g1 k T) es) (hv : ∀ e ∈ es, e.Valid n) (hA : AnglesLE Θ es)
    (ctx : NpCtx) (s : MState) (B : ℝ) (hR : FRel n ctx s B) :
    ∃ ctx', a ctx = .ok ctx' ∧ FRel n ctx' (steps phSim n es s) (errBound ε ν Θ n es s B) := by
  have hu := hS.u_nn
  have n1 : ∀ x, ‖cis x‖ ≤ 1 := fun x => (norm_cis x).le
  have w : ∀ {a b : ℂ}, ‖a - b‖ ≤ 2 * u → ‖a - b‖ ≤ 18 * u := fun h => h.trans (by linarith)
  have w4 : ∀ {a b : ℂ}, ‖a - b‖ ≤ 4 * u → ‖a - b‖ ≤ 18 * u := fun h => h.trans (by linarith)
  cases k <;> simp only [flAction, Option.some.injEq, reduceCtorEq] at ha <;> subst ha
  · refine swapLoop1_float hS bodyX .x _ (fun _ => rfl) (fun t ht ψ b hb => bodyX_vec ht ψ b hb)
      (fun t ht _ ψ => ?_) hd hv hA hR
    simp only [matrix1]; rw [gap_self]; have := Real.sqrt_nonneg (normSqN n ψ); positivity
  · exact swapLoop1_float hS (flBodyY F) .y _ (fun _ => rfl) (fun t ht ψ b hb => flBodyY_vec F ht ψ b hb)
      (fun t ht _ ψ => gap_fY hF hS ht ψ) hd hv hA hR
  · exact inPlaceLoop1_float hS _ .z _ (fun _ => rfl) (fun t ht ψ => flBodyPhase_vec F (-1) ψ)
      (fun t ht _ ψ => gap_fphase hF hS ht (w := -1) (by simp) (by simp; linarith) ψ) hd hv hA hR
  · exact h_float hF hS hd hv hA hR
  · exact inPlaceLoop1_float hS _ .t _ (fun _ => rfl) (fun t ht ψ => flBodyPhase_vec F _ ψ)
      (fun t ht _ ψ => gap_fphase hF hS ht (n1 _) (w (t_near hF hS)) ψ) hd hv hA hR
  · exact inPlaceLoop1_float hS _ .s _ (fun _ => rfl) (fun t ht ψ => flBodyPhase_vec F _ ψ)
      (fun t ht _ ψ => gap_fphase hF hS ht (w := Complex.I) (by simp) (by simp; linarith) ψ) hd hv hA hR
  · rename_i θ
    refine swapLoop1_float hS _ _ _ (fun _ => rfl) (fun t ht ψ b hb => flBodyRot_vec F _ _ _ _ ht ψ b hb)
      (fun t ht hx ψ => ?_) hd hv hA hR
    have hθ : |θ| ≤ Θ := hx θ (by simp [Elem.angles])
    exact gap_rot hF hS ht (M := mRX θ) (norm_cos_le _) (norm_isin_le _)
      (norm_isin_le _) (norm_cos_le _)
      (w (coshalf_near hF hS hθ)) (w4 (isin_near hF hS hθ)) (w4 (isin_near hF hS hθ)) (w (coshalf_near hF hS hθ)) ψ
  · rename_i θ
    refine swapLoop1_float hS _ _ _ (fun _ => rfl) (fun t ht ψ b hb => flBodyRot_vec F _ _ _ _ ht ψ b hb)
      (fun t ht hx ψ => ?_) hd hv hA hR
    have hθ : |θ| ≤ Θ := hx θ (by simp [Elem.angles])
    have hs := w (sinhalf_near hF hS hθ)
    exact gap_rot hF hS ht (M := mRY θ) (norm_cos_le _) (by rw [mRY, norm_neg]; exact norm_sin_le _)
      (norm_sin_le _) (norm_cos_le _)
      (w (coshalf_near hF hS hθ)) (by rw [mRY, ← neg_sub', norm_neg]; exact hs) hs (w (coshalf_near hF hS hθ)) ψ
  · rename_i θ
    refine inPlaceLoop1_float hS _ _ _ (fun _ => rfl) (fun t ht ψ => flBodyRZ_vec F _ _ ψ)
      (fun t ht hx ψ => ?_) hd hv hA hR
    have hθ : |θ| ≤ Θ := hx θ (by simp [Elem.angles])
    exact gap_fdiag hF hS ht (n1 _) (n1 _) (w (cexpNeghalf_near hF hS hθ)) (w (cexphalf_near hF hS hθ)) ψ
  · rename_i θ
    refine inPlaceLoop1_float hS _ _ _ (fun _ => rfl) (fun t ht ψ => flBodyPhase_vec F _ ψ)
      (fun t ht hx ψ => ?_) hd hv hA hR
    have hθ : |θ| ≤ Θ := hx θ (by simp [Elem.angles])
    exact gap_fphase hF hS ht (n1 _) (w (cexppar_near hF hS hθ)) ψ
  · rename_i θ
    refine inPlaceLoop1_float hS _ _ _ (fun _ => rfl) (fun t ht ψ => flBodyRZ_vec F _ _ ψ)
      (fun t ht hx ψ => ?_) hd hv hA hR
    have hθ : |θ| ≤ Θ := hx θ (by simp [Elem.angles])
    exact gap_fdiag hF hS ht (n1 _) (n1 _) (w (cexpNeghalf_near hF hS hθ)) (w (cexphalf_near hF hS hθ)) ψ
  · rename_i θ φ lam
    refine swapLoop1_float hS _ _ _ (fun _ => rfl) (fun t ht ψ b hb => flBodyU3_vec F _ _ _ _ ht ψ b)
      (fun t ht hx ψ => ?_) hd hv hA hR
    exact gap_fU3 hF hS ht (hx θ (by simp [Elem.angles])) (hx φ (by simp [Elem.angles])) (hx lam (by simp [Elem.angles])) ψ

theorem flAction_float {n : ℕ} (hF : Accurate F n ε ν) (hν : 0 ≤ ν) (hS : Small ε Θ u)  (g : Gate)
    (a : NpCtx → Except PyErr NpCtx) (es : List Elem)
    (ha : flAction F n g = some a) (hd : GateDenotes n g es) (hv : ∀ e ∈ es, e.Valid n) (hA : AnglesLE Θ es)
    (ctx : NpCtx) (s : MState) (B : ℝ) (hR : FRel n ctx s B) (hc : AllClear ε ν Θ n es s B) :
    ∃ ctx', a ctx = .ok ctx' ∧ FRel n ctx' (steps phSim n es s) (errBound ε ν Θ n es s B) := by
  cases g with
  | measure T => simp only [flAction, Option.some.injEq] at ha; subst ha; exact measure_float hF hν hS hd hv hR hc
  | reset T => simp only [flAction, Option.some.injEq] at ha; subst ha; exact reset_float hF hν hS hd hv hR hc
  | g3 k T =>
    obtain ⟨x, y, z, rfl, rfl⟩ := hd
    have h := hv _ (List.mem_singleton.2 rfl)
    cases k <;> simp only [flAction, Option.some.injEq, reduceCtorEq] at ha <;> subst ha
    · exact ccx_float hF hS h hR
    · exact ccz_float hF hS h hR
  | g2 k T => exact flAction_g2 hF hS k T a es ha hd hv hA ctx s B hR
  | g1 k T => exact flAction_g1 hF hS k T a es ha hd hv hA ctx s B hR

theorem flAction_none {n : ℕ} (g : Gate) (hg : flAction F n g = none) : g.hasFallback = true := by
  rcases g with k | k | k | _ | _ <;> first
    | (cases k <;> simp [flAction, Gate.hasFallback, G1.fallbackOn, G2.fallbackOn] at hg ⊢)
    | simp [flAction] at hg

/-! ## Runs -/

/-- A simulator whose methods stay near the machine does so with fallbacks. -/
theorem runGate_by_methods {σ : Type} {n : ℕ} (act : Gate → Option (σ → Except PyErr σ)) (Rel : σ → MState → ℝ → Prop)
    (hΘ : Real.pi / 2 ≤ Θ) (hκ : 0 ≤ passErr ε Θ)
    (hact : ∀ g a es, act g = some a → GateDenotes n g es → (∀ e ∈ es, e.Valid n) → AnglesLE Θ es → ∀ ctx s B,
      Rel ctx s B → AllClear ε ν Θ n es s B →
      ∃ ctx', a ctx = .ok ctx' ∧ Rel ctx' (steps phSim n es s) (errBound ε ν Θ n es s B))
    (hmono : ∀ ctx s B B', Rel ctx s B → B ≤ B' → Rel ctx s B') (hnn : ∀ ctx s B, Rel ctx s B → 0 ≤ B)
    (hnone : ∀ g, act g = none → flAction .exact n g = none)
    (fuel : ℕ) : ∀ (g : Gate), g.rank < fuel → ∀ (es : List Elem), GateDenotes n g es →
      (∀ e ∈ es, e.Valid n) → AnglesLE Θ es → ∀ ctx s B, Rel ctx s B → AllClear ε ν Θ n es s B →
      ∃ ctx', runGate act n fuel g ctx = .ok ctx' ∧ Rel ctx' (steps phSim n es s) (errBound ε ν Θ n es s B) := by
  induction fuel with
  | zero => intro g hg; omega
  | succ fuel ih =>
    intro g hr es hd hv hA ctx s B hR hc
    simp only [runGate]
    cases hact' : act g with
    | some a => exact hact g a es hact' hd hv hA ctx s B hR hc
    | none =>
      have hno := hnone g hact'
      have hfb := flAction_none g hno
      obtain ⟨gs, hgs⟩ := fallback_ok hfb hd
      obtain ⟨fs, hfs, hfv, hfu⟩ := fallback_implements phSim g es gs hd hv hgs
        (fun θ T h => by subst h; simp [flAction] at hno) (fun lam T h => rfl)
      obtain ⟨fs', hfs', hwt, hang⟩ := fallback_cheaper hΘ _ g es gs hno hd hv hgs
      obtain rfl := gatesDenote_unique hfs hfs'
      have hes := unitary_of_fallback hfb hd
      have hsame : steps phSim n es s = steps phSim n fs s := by
        rw [steps_unitary phSim n es hes, steps_unitary phSim n fs (fun e he => (hfv e he).2), hfu]
      have hrk := rank_fallback hgs
      rw [hgs, hsame]
      have hlist : ∀ (gs : List Gate) (fs : List Elem), (∀ g' ∈ gs, g'.rank < fuel) →
          GatesDenote n gs fs → (∀ e ∈ fs, e.Valid n ∧ e.IsUnitary) → AnglesLE Θ fs → ∀ ctx s B, Rel ctx s B →
          ∃ ctx', gs.foldlM (fun s g' => runGate act n fuel g' s) ctx = .ok ctx' ∧
            Rel ctx' (steps phSim n fs s) (errBound ε ν Θ n fs s B) := by
        intro gs
        induction gs with
        | nil =>
          intro fs _ hd _ _ ctx s B hR
          simp only [GatesDenote] at hd; subst hd
          exact ⟨ctx, rfl, hR⟩
        | cons g' gs ih' =>
          rintro fs hrk ⟨e₁, e₂, h1, h2, rfl⟩ hv hA ctx s B hR
          obtain ⟨c1, hc1, hR1⟩ := ih g' (hrk g' (by simp)) e₁ h1
            (fun e he => (hv e (by simp [he])).1) (fun e he => hA e (by simp [he])) ctx s B hR
            (allClear_unitary _ _ _ _ _ (fun e he => (hv e (by simp [he])).2) _ _)
          obtain ⟨c2, hc2, hR2⟩ := ih' e₂ (fun g hg => hrk g (by simp [hg])) h2
            (fun e he => hv e (by simp [he])) (fun e he => hA e (by simp [he])) c1 _ _ hR1
          refine ⟨c2, ?_, ?_⟩
          · simp only [List.foldlM_cons, hc1]; exact hc2
          · rw [steps_append, errBound_append]; exact hR2
      obtain ⟨c', h1, h2⟩ := hlist gs fs (fun g' hg' => by have := hrk g' hg'; omega) hfs hfv (hang hA) ctx s B hR
      refine ⟨c', h1, hmono _ _ _ _ h2 ?_⟩
      rw [errBound_unitary _ _ _ _ _ hes, errBound_unitary _ _ _ _ _ fun e he => (hfv e he).2]
      have := mul_le_mul_of_nonneg_right (pow_le_pow_right₀ (show 1 ≤ 1 + passErr ε Θ by linarith) hwt)
        (show 0 ≤ 1 + B by have := hnn _ _ _ hR; linarith)
      linarith

theorem runGate_float {n : ℕ} (hF : Accurate F n ε ν) (hν : 0 ≤ ν) (hS : Small ε Θ u) (hΘ : Real.pi / 2 ≤ Θ) 
    (fuel : ℕ) : ∀ (g : Gate), g.rank < fuel → ∀ (es : List Elem), GateDenotes n g es →
      (∀ e ∈ es, e.Valid n) → AnglesLE Θ es → ∀ ctx s B, FRel n ctx s B → AllClear ε ν Θ n es s B →
      ∃ ctx', runGate (flAction F n) n fuel g ctx = .ok ctx' ∧
        FRel n ctx' (steps phSim n es s) (errBound ε ν Θ n es s B) :=
  runGate_by_methods (flAction F n) (FRel n) hΘ (by rw [passErr_eq hS]; have := hS.u_nn; linarith)
    (fun g a es => flAction_float hF hν hS g a es) (fun _ _ _ _ h hB => h.mono hB) (fun _ _ _ h => h.nonneg)
    (fun g hg => by
      rcases g with k | k | k | _ | _ <;> first
        | (cases k <;> simp [flAction] at hg ⊢)
        | simp [flAction] at hg) fuel

theorem runGates_float {n : ℕ} (hF : Accurate F n ε ν) (hν : 0 ≤ ν) (hS : Small ε Θ u) (hΘ : Real.pi / 2 ≤ Θ) 
    (gs : List Gate) : ∀ (es : List Elem), GatesDenote n gs es → (∀ e ∈ es, e.Valid n) → AnglesLE Θ es →
    ∀ ctx s B, FRel n ctx s B → AllClear ε ν Θ n es s B →
    ∃ ctx', runGates (flAction F n) n recursionLimit gs ctx = .ok ctx' ∧
      FRel n ctx' (steps phSim n es s) (errBound ε ν Θ n es s B) := by
  induction gs with
  | nil =>
    intro es hd _ _ ctx s B hR _
    simp only [GatesDenote] at hd; subst hd
    exact ⟨ctx, rfl, hR⟩
  | cons g gs ih =>
    rintro es ⟨e1, e2, h1, h2, rfl⟩ hv hA ctx s B hR hc
    obtain ⟨hc1, hc2⟩ := (allClear_append _ _ _ _ _ _ _ _).1 hc
    obtain ⟨c1, hs1, hR1⟩ := runGate_float hF hν hS hΘ recursionLimit g
      (by have := rank_le g; simp only [recursionLimit]; omega) e1 h1 (fun e he => hv e (by simp [he]))
      (fun e he => hA e (by simp [he])) ctx s B hR hc1
    obtain ⟨c2, hs2, hR2⟩ := ih e2 h2 (fun e he => hv e (by simp [he])) (fun e he => hA e (by simp [he])) c1 _ _ hR1 hc2
    refine ⟨c2, ?_, ?_⟩
    · simp only [runGates, List.foldlM_cons, hs1] at hs2 ⊢; exact hs2
    · rw [steps_append, errBound_append]; exact hR2

end

end Spec
