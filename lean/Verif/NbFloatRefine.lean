import Verif.NbFloatLemmas

/-! Lemmas: the compiled numba simulator stays near the machine. -/

set_option linter.unusedSimpArgs false
set_option linter.unusedVariables false

namespace Spec

open Blueqat

noncomputable section

variable {K : NbFloat} {ε ν Θ u : ℝ}

/-- The context of the numba simulator with a buffer. -/
def withBuf (n : ℕ) (c : NbCtx) : NpCtx := ⟨c.qubits, List.replicate (2 ^ n) 0, c.cregs, false, c.rnd⟩

/-- The context is within `B` of the machine state. -/
def NbNear (n : ℕ) (c : NbCtx) (s : MState) (B : ℝ) : Prop := FRel n (withBuf n c) s B

theorem kernel_const (hS : Small ε Θ u) : 22 * (1 + Θ) * ε = 22 * u := by rw [← hS.eq]; ring

/-! ## Gates -/

theorem nbLoop1_near {n : ℕ} {f : ℤ → Arr → Except PyErr Arr} {T : Targets} {c : NbCtx} {s : MState} {B : ℝ}
    (h : ∃ ctx', inPlaceLoop1 (fun _ => f) n T (withBuf n c) = .ok ctx' ∧ FRel n ctx' s B) :
    ∃ c', (forGen (slicing T n) f c.qubits).map (fun q => ({ c with qubits := q } : NbCtx)) = .ok c' ∧ NbNear n c' s B := by
  obtain ⟨ctx', h1, h2⟩ := h
  simp only [inPlaceLoop1, withBuf] at h1
  cases hf : forGen (slicing T n) f c.qubits with
  | error e => rw [hf] at h1; cases h1
  | ok q => rw [hf] at h1; cases h1; exact ⟨_, rfl, h2⟩

theorem nbLoop2_near {n : ℕ} {f : ℤ → ℤ → Arr → Except PyErr Arr} {T : Targets} {c : NbCtx} {s : MState} {B : ℝ}
    (h : ∃ ctx', inPlaceLoop2 (fun _ => f) n T (withBuf n c) = .ok ctx' ∧ FRel n ctx' s B) :
    ∃ c', (forPairs (qubitPairs T n) f c.qubits).map (fun q => ({ c with qubits := q } : NbCtx)) = .ok c' ∧
      NbNear n c' s B := by
  obtain ⟨ctx', h1, h2⟩ := h
  simp only [inPlaceLoop2, withBuf] at h1
  cases hf : forPairs (qubitPairs T n) f c.qubits with
  | error e => rw [hf] at h1; cases h1
  | ok q => rw [hf] at h1; cases h1; exact ⟨_, rfl, h2⟩

theorem nbG1_near {n : ℕ} (hn : n ≤ 64) (hK : NbAccurate K n ε ν Θ) (hS : Small ε Θ u) (k : G1) (T : Targets)
    (b : ℕ → ℕ → List Ins) (hb : nbBody1 k = some b) {es : List Elem} (hd : GateDenotes n (.g1 k T) es)
    (hv : ∀ e ∈ es, e.Valid n) (hA : AnglesLE Θ es) (c : NbCtx) (s : MState) (B : ℝ) (hR : NbNear n c s B) :
    ∃ c', (forGen (slicing T n) (nbKernel1 (compiled (K.store (.one k)) b) n) c.qubits).map
        (fun q => ({ c with qubits := q } : NbCtx)) = .ok c' ∧
      NbNear n c' (steps phSim n es s) (errBound ε ν Θ n es s B) := by
  have hu := hS.u_nn
  apply nbLoop1_near
  by_cases hx : ∀ x ∈ (Elem.one k 0).angles, |x| ≤ Θ
  · obtain ⟨A, h1, h2, -⟩ := compiled_kernel hn (nbBody1_acts hb) (nearOf_body1 hb) (by rw [kernel_const hS]; linarith)
      (hK.one k b hb hx)
    refine inPlaceLoop1_float hS _ k A (fun t => ?_) h2 (fun t ht _ ψ => ?_) hd hv hA hR
    · cases k <;> simp [nbBody1] at hb <;> rfl
    · refine (h1 t ht ψ).trans (le_of_eq ?_)
      rw [kernel_const hS]; ring
  · obtain ⟨L, hL, rfl⟩ := hd
    cases L with
    | cons t L => exact absurd (hA (.one k t) (by simp)) hx
    | nil =>
      rw [← slicing_eq_iff] at hL
      exact ⟨withBuf n c, by simp only [inPlaceLoop1, forGen, hL]; rfl, hR⟩

theorem nbG2_near {n : ℕ} (hn : n ≤ 64) (hK : NbAccurate K n ε ν Θ) (hS : Small ε Θ u) (k : G2) (T : Targets)
    (b : ℕ → ℕ → List Ins) (hb : nbBody2 k = some b) {es : List Elem} (hd : GateDenotes n (.g2 k T) es)
    (hv : ∀ e ∈ es, e.Valid n) (hA : AnglesLE Θ es) (c : NbCtx) (s : MState) (B : ℝ) (hR : NbNear n c s B) :
    ∃ c', (forPairs (qubitPairs T n) (fun c t q => nbKernelC (compiled (K.store (.two k)) b) n [c, t] q) c.qubits).map
        (fun q => ({ c with qubits := q } : NbCtx)) = .ok c' ∧
      NbNear n c' (steps phSim n es s) (errBound ε ν Θ n es s B) := by
  have hu := hS.u_nn
  apply nbLoop2_near
  by_cases hx : ∀ x ∈ (Elem.two k 0 1).angles, |x| ≤ Θ
  · obtain ⟨M, hM, hop⟩ := nbBody2_acts hb
    obtain ⟨A, h1, -, h3⟩ := compiled_kernel hn hM (nearOf_body2 hb) (by rw [kernel_const hS]; linarith)
      (hK.two k b hb hx)
    refine inPlaceLoop2_float hS _ k (fun c t => ctrl c (A t)) (fun _ _ => ?_) (fun c t hc ht hne ψ => ?_)
      (fun c t hc ht hne _ ψ => ?_) hd hv hA hR
    · cases k <;> simp [nbBody2] at hb <;> rfl
    · refine (h3 t [c] (by simp [hc, ht]) (by simp [hne]) ψ).trans ?_
      congr 1
      apply vec_congr; intro i hi
      simp [ctrl, allSet]
    · rw [hop]
      refine (gap_ctrl _ _ _ _ _).trans ((h1 t ht ψ).trans (le_of_eq ?_))
      rw [kernel_const hS]; ring
  · obtain ⟨L, hL, rfl⟩ := hd
    cases L with
    | cons p L => exact absurd (hA (.two k p.1 p.2) (by simp)) hx
    | nil =>
      rw [← pairsDenote_iff] at hL
      exact ⟨withBuf n c, by simp only [inPlaceLoop2, forPairs, hL]; rfl, hR⟩

theorem nbG3_near {n : ℕ} (hn : n ≤ 64) (hK : NbAccurate K n ε ν Θ) (hS : Small ε Θ u) (k : G3) (T : Targets)
    (b : ℕ → ℕ → List Ins) (hb : nbBody3 k = some b) {es : List Elem} (hd : GateDenotes n (.g3 k T) es)
    (hv : ∀ e ∈ es, e.Valid n) (c : NbCtx) (s : MState) (B : ℝ) (hR : NbNear n c s B) :
    ∃ c', (do let ct ← nbIntArray T
              nbKernelC (compiled (K.store (.three k)) b) n ct c.qubits : Except PyErr Arr).map
        (fun q => ({ c with qubits := q } : NbCtx)) = .ok c' ∧
      NbNear n c' (steps phSim n es s) (errBound ε ν Θ n es s B) := by
  have hu := hS.u_nn
  have hB := FRel.nonneg hR
  obtain ⟨x, y, z, rfl, rfl⟩ := hd
  have hval := hv _ (List.mem_singleton.2 rfl)
  obtain ⟨v1, v2, v3, v4, v5, v6⟩ := id hval
  obtain ⟨M, hM, hop⟩ := nbBody3_acts hb
  obtain ⟨A, h1, -, h3⟩ := compiled_kernel hn hM (nearOf_body3 hb) (by rw [kernel_const hS]; linarith) (hK.three k b hb)
  obtain ⟨φ, hφ, hgap⟩ := FRel.qubits hR
  have hφ : c.qubits = vec n φ := hφ
  have e : nbIntArray (.tup [.atom (.int x), .atom (.int y), .atom (.int z)]) =
      .ok (([x, y] ++ [z]).map (fun q : ℕ => (q : ℤ))) := rfl
  have hq := h3 z [x, y] (by simp [v1, v2, v3]) (by simp [v4, v5, v6]) φ
  refine ⟨{ c with qubits := vec n (ctrl x (ctrl y (A z)) φ) }, ?_, ?_⟩
  · rw [e, ok_bind, hφ, hq]
    simp only [Except.map]
    congr 2
    apply vec_congr; intro i hi
    simp only [ctrl, allSet]
    by_cases ha : i.testBit x <;> by_cases hb : i.testBit y <;> simp [ha, hb]
  · have hk : ∃ m, passes [Elem.three k x y z] = m + 1 := by
      cases k <;> simp [nbBody3] at hb
      · exact ⟨2, rfl⟩
      · exact ⟨0, rfl⟩
    obtain ⟨m, hm⟩ := hk
    refine hR.of_psi (b := List.replicate (2 ^ n) 0) (m := m + 1) (by simp [Elem.IsUnitary]) hv hm rfl ?_ (by simp)
    rw [passErr_eq hS]
    have hp := pass_near (κ := 44 * u) (by linarith) hgap (FRel.good hR).1 (K := ctrl x (ctrl y (A z)))
      (U := op3 k x y z) (by
        rw [hop]
        refine (gap_ctrl _ _ _ _ _).trans ((gap_ctrl _ _ _ _ _).trans ((h1 z v3 φ).trans (le_of_eq ?_)))
        rw [kernel_const hS]; ring) (gap_elem norm_phSim (.three k x y z) hval φ s.psi)
    refine hp.trans ?_
    have h5 : 1 + 44 * u ≤ (1 + 44 * u) ^ (m + 1) := le_self_pow₀ (by linarith) (by omega)
    have := mul_le_mul_of_nonneg_right h5 (show 0 ≤ 1 + B by linarith)
    linarith

/-! ## Measurement and reset -/

theorem nbP0_near {n : ℕ} (hn : n ≤ 64) (hK : NbAccurate K n ε ν Θ) (hν : 0 ≤ ν) {t : ℕ} (ht : t < n) {φ χ : Vec} {B : ℝ}
    (h : gap n φ χ ≤ B) (h1 : normSqN n χ = 1) :
    |K.p0 n t (vec n φ) - prob n t false χ| ≤ (1 + ν) * (1 + B) ^ 2 - 1 := by
  have h2 := hK.p0 t ht (vec n φ) (by simp)
  rw [nbP0_eq ht hn] at h2
  obtain ⟨h3, h4⟩ := prob_near (t := t) (b := false) h h1
  have e2 : K.p0 n t (vec n φ) - prob n t false χ =
    (K.p0 n t (vec n φ) - prob n t false φ) + (prob n t false φ - prob n t false χ) := by ring
  rw [e2]
  refine (abs_add_le _ _).trans ((add_le_add h2 h3).trans ?_)
  have := mul_le_mul_of_nonneg_left h4 hν
  linarith

theorem scale_arith {ε g B E δ : ℝ} (hg0 : 0 ≤ g) (hg1 : g ≤ 1) (hε : 0 ≤ ε) (hε8 : 8 * ε ≤ 1) (hB : 0 ≤ B)
    (hBE : 2 * B ≤ E) (hεE : ε ≤ E) (hδ : g * δ ≤ E) : g * (4 * ε * (g + B) + B + δ) ≤ 6 * E := by
  have hgg : g * g ≤ 1 := mul_le_one₀ hg1 hg0 hg1
  have a1 : ε * (g * g) ≤ ε * 1 := mul_le_mul_of_nonneg_left hgg hε
  have a2 : g * B ≤ 1 * B := mul_le_mul_of_nonneg_right hg1 hB
  have a3 : ε * (g * B) ≤ ε * (1 * B) := mul_le_mul_of_nonneg_left a2 hε
  have a4 : ε * B ≤ 1 / 8 * B := mul_le_mul_of_nonneg_right (by linarith) hB
  have e : g * (4 * ε * (g + B) + B + δ) = 4 * (ε * (g * g)) + 4 * (ε * (g * B)) + g * B + g * δ := by ring
  rw [e]
  linarith

/-- Multiplying the measured part by the inverse root of a probability near the exact one. -/
theorem scale_near {n : ℕ} (hε : 0 ≤ ε) (hε8 : 8 * ε ≤ 1) {t : ℕ} {b : Bool} {φ χ D : Vec} {B E q : ℝ}
    (h : gap n φ χ ≤ B) (h1 : normSqN n χ = 1) (hq : |q - prob n t b χ| ≤ E) (hE : 4 * E ≤ prob n t b χ)
    (hp : 0 < prob n t b χ) (hBE : 2 * B ≤ E) (hεE : ε ≤ E)
    (hD : 0 < q → ∀ i, ‖D i - part t b φ i * ((1 / Real.sqrt q : ℝ) : ℂ)‖ ≤
      4 * ε * ‖part t b φ i * ((1 / Real.sqrt q : ℝ) : ℂ)‖) :
    gap n D (collapse n t b χ) ≤ 8 * E / prob n t b χ := by
  have hB := (gap_nonneg n φ χ).trans h
  have hE0 : 0 ≤ E := hε.trans hεE
  have hg2 := Real.mul_self_sqrt hp.le
  have hg0 := Real.sqrt_pos.2 hp
  have hg1 : Real.sqrt (prob n t b χ) ≤ 1 := Real.sqrt_le_one.2 (prob_le_one h1)
  have hφn : Real.sqrt (normSqN n (part t b φ)) ≤ Real.sqrt (prob n t b χ) + B := by
    rw [normSqN_part]
    have := (abs_le.1 (sqrt_prob_near (t := t) (b := b) h)).2; linarith
  have hχn : Real.sqrt (normSqN n (part t b χ)) = Real.sqrt (prob n t b χ) := by rw [normSqN_part]
  have hcol : collapse n t b χ = fun i => part t b χ i * ((Real.sqrt (prob n t b χ) : ℝ) : ℂ)⁻¹ := by
    funext i; simp only [collapse, part]; split_ifs <;> simp [div_eq_mul_inv]
  rw [hcol]
  generalize Real.sqrt (prob n t b χ) = g at *
  rw [← hg2] at hq hE ⊢
  have hq0 : 0 < q := by have := (abs_le.1 hq).1; nlinarith
  have hD := hD hq0
  have hr2 := Real.mul_self_sqrt hq0.le
  have hr0 := Real.sqrt_pos.2 hq0
  have hδ : g * |Real.sqrt q - g| ≤ E := sqrt_arith hg0 hq0 hq
  have hd2 : g ≤ 4 / 3 * Real.sqrt q := by
    have h2 := neg_abs_le (Real.sqrt q - g)
    have h4 : g * |Real.sqrt q - g| ≤ g * (g / 4) := by nlinarith
    have h5 := le_of_mul_le_mul_left h4 hg0
    linarith
  generalize Real.sqrt q = d at *
  have hnd : ‖((d : ℝ) : ℂ)⁻¹‖ = d⁻¹ := by
    rw [norm_inv, Complex.norm_real, Real.norm_of_nonneg hr0.le]
  have hcast : ((1 / d : ℝ) : ℂ) = (d : ℂ)⁻¹ := by push_cast; rw [one_div]
  rw [hcast] at hD
  have t1 : gap n D (fun i => part t b φ i * (d : ℂ)⁻¹) ≤ 4 * ε * d⁻¹ * (g + B) := by
    refine (gap_pointwise (ψ := part t b φ) (κ := 4 * ε * d⁻¹) (by positivity) fun i => ?_).trans
      (mul_le_mul_of_nonneg_left hφn (by positivity))
    have := hD i
    rw [norm_mul, hnd] at this
    linarith
  have t2 : gap n (fun i => part t b φ i * (d : ℂ)⁻¹) (fun i => part t b χ i * (d : ℂ)⁻¹) ≤ d⁻¹ * B := by
    rw [gap_mulc, hnd]
    exact mul_le_mul_of_nonneg_left ((gap_part n t b φ χ).trans h) (by positivity)
  have t3 : gap n (fun i => part t b χ i * (d : ℂ)⁻¹) (fun i => part t b χ i * (g : ℂ)⁻¹) ≤ d⁻¹ * |d - g| := by
    rw [gap_scale, hχn, ← Complex.ofReal_inv, ← Complex.ofReal_inv, abs_ofReal_sub]
    have e : d⁻¹ - g⁻¹ = -(d⁻¹ * g⁻¹ * (d - g)) := by field_simp; ring
    rw [e, abs_neg, abs_mul, abs_of_pos (by positivity : 0 < d⁻¹ * g⁻¹)]
    refine le_of_eq ?_
    field_simp
  have tt := ((gap_triangle n _ _ _).trans (add_le_add t1 ((gap_triangle n _ _ _).trans (add_le_add t2 t3))))
  refine tt.trans ?_
  have e : 4 * ε * d⁻¹ * (g + B) + (d⁻¹ * B + d⁻¹ * |d - g|) = (4 * ε * (g + B) + B + |d - g|) / d := by
    field_simp; ring
  rw [e, div_le_div_iff₀ hr0 (by positivity)]
  have k1 : g * (4 * ε * (g + B) + B + |d - g|) ≤ 6 * E := scale_arith hg0.le hg1 hε hε8 hB hBE hεE hδ
  calc (4 * ε * (g + B) + B + |d - g|) * (g * g) = g * (g * (4 * ε * (g + B) + B + |d - g|)) := by ring
    _ ≤ g * (6 * E) := mul_le_mul_of_nonneg_left k1 hg0.le
    _ ≤ (4 / 3 * d) * (6 * E) := mul_le_mul_of_nonneg_right hd2 (by linarith)
    _ = 8 * E * d := by ring

/-- Both branches of the comparison. -/
theorem nbBranch_near {n : ℕ} (hn : n ≤ 64) (hK : NbAccurate K n ε ν Θ) (hν : 0 ≤ ν) (hS : Small ε Θ u) {t : ℕ} (ht : t < n)
    {φ : Vec} {s : MState} {B : ℝ} (h : gap n φ s.psi ≤ B) (hg : Good n s) (hc : (Elem.meas t).Clear ε ν n s B) :
    let q := K.p0 n t (vec n φ)
    (s.rnd 0 < q ↔ s.rnd 0 < prob n t false s.psi) ∧
    (s.rnd 0 < prob n t false s.psi → ∀ D : Vec,
      (0 < q → ∀ i, ‖D i - part t false φ i * ((1 / Real.sqrt q : ℝ) : ℂ)‖ ≤
        4 * ε * ‖part t false φ i * ((1 / Real.sqrt q : ℝ) : ℂ)‖) →
      gap n D (collapse n t false s.psi) ≤ 8 * probErr ε ν B / resultProb n t s) ∧
    (¬ s.rnd 0 < prob n t false s.psi → ∀ D : Vec,
      (q < 1 → ∀ i, ‖D i - part t true φ i * ((1 / Real.sqrt (1 - q) : ℝ) : ℂ)‖ ≤
        4 * ε * ‖part t true φ i * ((1 / Real.sqrt (1 - q) : ℝ) : ℂ)‖) →
      gap n D (collapse n t true s.psi) ≤ 8 * probErr ε ν B / resultProb n t s) := by
  intro q
  obtain ⟨h1, h2⟩ := hg
  obtain ⟨hc1, hc2⟩ := hc
  have hB := (gap_nonneg n φ s.psi).trans h
  have hε := hS.eps
  have hε8 : 8 * ε ≤ 1 := by have := hS.eps_le; have := hS.le; have := hS.u_nn; linarith
  obtain ⟨e1, e2, e3, e4⟩ := probErr_ge hε hν hB
  have hp0 := (nbP0_near hn hK hν ht h h1).trans e1
  have hsum : prob n t false s.psi + prob n t true s.psi = 1 := by rw [prob_add, h1]
  refine ⟨clear_iff hp0 hc1, fun hr D hD => ?_, fun hr D hD => ?_⟩
  · have hrp : resultProb n t s = prob n t false s.psi := by simp only [resultProb, if_pos hr]
    rw [hrp] at hc2 ⊢
    exact scale_near hε hε8 h h1 hp0 hc2 (by have := (h2 0).1; linarith) e2 e3 hD
  · have hrp : resultProb n t s = prob n t true s.psi := by simp only [resultProb, if_neg hr]
    rw [hrp] at hc2 ⊢
    refine scale_near (q := 1 - q) hε hε8 h h1 ?_ hc2 (by have := (h2 0).2; push Not at hr; linarith) e2 e3
      fun h0 => hD (by linarith)
    rw [show 1 - q - prob n t true s.psi = -(q - prob n t false s.psi) by linarith, abs_neg]
    exact hp0

theorem iters1_runAt {body : ℕ → ℕ → List Ins} {F G : ℕ → ℂ → ℂ → ℂ} (hb : ActsAt body F G) {n t : ℕ} (ht : t < n)
    (hn : n ≤ 64) (ψ : Vec) : runIters (iters1 body n t) (vec n ψ) = vec n (appA F G t ψ) := by
  rw [iters1_eq body ht hn, (pairLoop1 ht hn).run ht hb]
  congr 1

theorem rel_zero {S : ℕ → ℕ → ℂ → ℂ → ℂ} {b : ℕ → ℕ → List Ins} {C : ℝ} (h : StoresRel S b C) {i0 i1 j a : ℕ}
    (hb : (b i0 i1)[j]? = some (.store a fun _ _ => 0)) (t u : ℂ) : S j a t u = 0 := by
  simpa using h i0 i1 j a _ hb t u

theorem reduce0_run {S : ℕ → ℕ → ℂ → ℂ → ℂ} {r : ℂ} {C : ℝ} (h : StoresRel S (insReduce0 r) C) {n t : ℕ}
    (ht : t < n) (hn : n ≤ 64) (φ : Vec) :
    ∃ D, runIters (iters1 (compiled S (insReduce0 r)) n t) (vec n φ) = vec n D ∧
      ∀ i, ‖D i - part t false φ i * r‖ ≤ C * ‖part t false φ i * r‖ := by
  refine ⟨_, iters1_runAt (at_insReduce0 S r) ht hn φ, fun i => ?_⟩
  simp only [appA, part]
  by_cases hb : i.testBit t
  · simp [hb, rel_zero h (i0 := 0) (i1 := i) (j := 2) (a := i) rfl]
  · simpa [hb] using h i 0 1 i _ rfl (φ i) 0

theorem reduce1_run {S : ℕ → ℕ → ℂ → ℂ → ℂ} {r : ℂ} {C : ℝ} (h : StoresRel S (insReduce1 r) C) {n t : ℕ}
    (ht : t < n) (hn : n ≤ 64) (φ : Vec) :
    ∃ D, runIters (iters1 (compiled S (insReduce1 r)) n t) (vec n φ) = vec n D ∧
      ∀ i, ‖D i - part t true φ i * r‖ ≤ C * ‖part t true φ i * r‖ := by
  refine ⟨_, iters1_runAt (at_insReduce1 S r) ht hn φ, fun i => ?_⟩
  simp only [appA, part]
  by_cases hb : i.testBit t
  · simpa [hb] using h 0 i 1 i _ rfl (φ i) 0
  · simp [hb, rel_zero h (i0 := i) (i1 := 0) (j := 2) (a := i) rfl]

theorem reset1_run {S : ℕ → ℕ → ℂ → ℂ → ℂ} {r : ℂ} {C : ℝ} (h : StoresRel S (insReset1 r) C) {n t : ℕ}
    (ht : t < n) (hn : n ≤ 64) (φ : Vec) :
    ∃ D, runIters (iters1 (compiled S (insReset1 r)) n t) (vec n φ) = vec n (app mX t D) ∧
      ∀ i, ‖D i - part t true φ i * r‖ ≤ C * ‖part t true φ i * r‖ := by
  refine ⟨fun i => if i.testBit t then S 1 (flipBit t i) 0 (φ i) else 0, ?_, fun i => ?_⟩
  · rw [iters1_runAt (at_insReset1 S r) ht hn φ]
    apply vec_congr; intro i hi
    simp only [appA, app, mX, testBit_flipBit_self, flipBit_flipBit]
    by_cases hb : i.testBit t
    · simp [hb, rel_zero h (i0 := 0) (i1 := i) (j := 2) (a := i) rfl]
    · simp [hb]
  · simp only [part]
    by_cases hb : i.testBit t
    · simpa [hb] using h (flipBit t i) 0 1 (flipBit t i) _ rfl 0 (φ i)
    · simp [hb]

theorem nbMeasureBody_near {n : ℕ} (hn : n ≤ 64) (hK : NbAccurate K n ε ν Θ) (hν : 0 ≤ ν) (hS : Small ε Θ u) {t : ℕ}
    (ht : t < n) {c : NbCtx} {s : MState} {B : ℝ} (hR : NbNear n c s B) (hc : (Elem.meas t).Clear ε ν n s B) :
    ∃ c', flNbMeasureBody K n (t : ℤ) c = .ok c' ∧
      NbNear n c' ((Elem.meas t).step phSim n s) ((Elem.meas t).errStep ε ν Θ n s B) := by
  have hg := good_step norm_phSim (.meas t) ht s (FRel.good hR)
  obtain ⟨φ, hφ, hgap⟩ := FRel.qubits hR
  have hφ : c.qubits = vec n φ := hφ
  have hrnd : c.rnd = s.rnd := FRel.rnd hR
  have hcr : c.cregs = cregList n s.creg := FRel.cregs hR
  obtain ⟨hiff, hb0, hb1⟩ := nbBranch_near hn hK hν hS ht hgap (FRel.good hR) hc
  have hq0 : ∀ i, 0 ≤ s.rnd i := fun i => ((FRel.good hR).2 i).1
  simp only [flNbMeasureBody, if_pos (show (0:ℤ) ≤ t ∧ (t:ℤ) < n by omega), Int.toNat_natCast, hφ, hrnd, hcr]
  simp only [Elem.step, Elem.errStep] at hg ⊢
  by_cases h : s.rnd 0 < prob n t false s.psi
  · have hlt := hiff.2 h
    rw [if_pos hlt]
    simp only [h, if_true] at hg ⊢
    have := setCreg_eq ht s.creg false
    simp only [Bool.toNat_false] at this
    rw [this, ok_bind, pure_ok]
    obtain ⟨D, hD1, hD2⟩ := reduce0_run (hK.reduce0 (K.p0 n t (vec n φ)) (by have := hq0 0; linarith)) ht hn φ
    exact ⟨_, rfl, ⟨D, hD1, hb0 h D fun _ => hD2⟩, by simp [withBuf], rfl, rfl, hg⟩
  · have hge : ¬ s.rnd 0 < K.p0 n t (vec n φ) := fun h' => h (hiff.1 h')
    rw [if_neg hge]
    simp only [h, if_false] at hg ⊢
    have := setCreg_eq ht s.creg true
    simp only [Bool.toNat_true] at this
    rw [this, ok_bind, pure_ok]
    obtain ⟨D, hD1, hD2⟩ := reduce1_run (hK.reduce1 (K.p0 n t (vec n φ)) (by
      have := ((FRel.good hR).2 0).2; push Not at hge; linarith)) ht hn φ
    exact ⟨_, rfl, ⟨D, hD1, hb1 h D fun _ => hD2⟩, by simp [withBuf], rfl, rfl, hg⟩

theorem nbResetBody_near {n : ℕ} (hn : n ≤ 64) (hK : NbAccurate K n ε ν Θ) (hν : 0 ≤ ν) (hS : Small ε Θ u) {t : ℕ}
    (ht : t < n) {c : NbCtx} {s : MState} {B : ℝ} (hR : NbNear n c s B) (hc : (Elem.reset t).Clear ε ν n s B) :
    ∃ c', flNbResetBody K n (t : ℤ) c = .ok c' ∧
      NbNear n c' ((Elem.reset t).step phSim n s) ((Elem.reset t).errStep ε ν Θ n s B) := by
  have hg := good_step norm_phSim (.reset t) ht s (FRel.good hR)
  obtain ⟨φ, hφ, hgap⟩ := FRel.qubits hR
  have hφ : c.qubits = vec n φ := hφ
  have hrnd : c.rnd = s.rnd := FRel.rnd hR
  have hcr : c.cregs = cregList n s.creg := FRel.cregs hR
  obtain ⟨hiff, hb0, hb1⟩ := nbBranch_near hn hK hν hS ht hgap (FRel.good hR) hc
  have hq0 : ∀ i, 0 ≤ s.rnd i := fun i => ((FRel.good hR).2 i).1
  simp only [flNbResetBody, if_pos (show (0:ℤ) ≤ t ∧ (t:ℤ) < n by omega), Int.toNat_natCast, hφ, hrnd]
  simp only [Elem.step, Elem.errStep] at hg ⊢
  by_cases h : s.rnd 0 < prob n t false s.psi
  · have hlt := hiff.2 h
    rw [if_pos hlt]
    simp only [h, if_true] at hg ⊢
    obtain ⟨D, hD1, hD2⟩ := reduce0_run (hK.reduce0 (K.p0 n t (vec n φ)) (by have := hq0 0; linarith)) ht hn φ
    exact ⟨_, rfl, ⟨D, hD1, hb0 h D fun _ => hD2⟩, by simp [withBuf], hcr, rfl, hg⟩
  · have hge : ¬ s.rnd 0 < K.p0 n t (vec n φ) := fun h' => h (hiff.1 h')
    rw [if_neg hge]
    simp only [h, if_false] at hg ⊢
    obtain ⟨D, hD1, hD2⟩ := reset1_run (hK.reset1 (K.p0 n t (vec n φ)) (by
      have := ((FRel.good hR).2 0).2; push Not at hge; linarith)) ht hn φ
    exact ⟨_, rfl, ⟨_, hD1, (gap_app ht (M := mX) (unit_matrix1 .x) _ _).le.trans (hb1 h D fun _ => hD2)⟩,
      by simp [withBuf], hcr, rfl, hg⟩

/-- A loop over targets whose body keeps the relation for clear operations. -/
theorem nbLoop_clear {n : ℕ} (body : ℤ → NbCtx → Except PyErr NbCtx) (e : ℕ → Elem)
    (hb : ∀ t < n, ∀ ctx s B, NbNear n ctx s B → (e t).Clear ε ν n s B →
      ∃ ctx', body (t : ℤ) ctx = .ok ctx' ∧ NbNear n ctx' ((e t).step phSim n s) ((e t).errStep ε ν Θ n s B))
    (L : List ℕ) (hL : ∀ t ∈ L, t < n) : ∀ ctx s B, NbNear n ctx s B → AllClear ε ν Θ n (L.map e) s B →
      ∃ ctx', (L.map fun q : ℕ => (q : ℤ)).foldlM (fun s t => body t s) ctx = .ok ctx' ∧
        NbNear n ctx' (steps phSim n (L.map e) s) (errBound ε ν Θ n (L.map e) s B) := by
  induction L with
  | nil => intro ctx s B hR _; exact ⟨ctx, rfl, hR⟩
  | cons t L ih =>
    rintro ctx s B hR ⟨h1, h2⟩
    obtain ⟨c1, h3, h4⟩ := hb t (hL t (by simp)) ctx s B hR h1
    obtain ⟨c2, h5, h6⟩ := ih (fun t h => hL t (by simp [h])) c1 _ _ h4 h2
    refine ⟨c2, ?_, h6⟩
    simp only [List.map_cons, List.foldlM_cons, h3]; exact h5

theorem flNbAction_near {n : ℕ} (hn : n ≤ 64) (hK : NbAccurate K n ε ν Θ) (hν : 0 ≤ ν) (hS : Small ε Θ u) (g : Gate)
    (a : NbCtx → Except PyErr NbCtx) (es : List Elem)
    (ha : flNbAction K n g = some a) (hd : GateDenotes n g es) (hv : ∀ e ∈ es, e.Valid n) (hA : AnglesLE Θ es)
    (c : NbCtx) (s : MState) (B : ℝ) (hR : NbNear n c s B) (hc : AllClear ε ν Θ n es s B) :
    ∃ c', a c = .ok c' ∧ NbNear n c' (steps phSim n es s) (errBound ε ν Θ n es s B) := by
  cases g with
  | measure T =>
    simp only [flNbAction, Option.some.injEq] at ha; subst ha
    obtain ⟨L, hL, rfl⟩ := hd
    rw [← slicing_eq_iff] at hL
    obtain ⟨c', h1, h2⟩ := nbLoop_clear (flNbMeasureBody K n) (fun t => .meas t)
      (fun t ht ctx s B hR hc => nbMeasureBody_near hn hK hν hS ht hR hc) L
      (fun t ht => hv (.meas t) (List.mem_map.2 ⟨t, ht, rfl⟩)) c s B hR hc
    exact ⟨c', by simp only [forGen, hL, h1], h2⟩
  | reset T =>
    simp only [flNbAction, Option.some.injEq] at ha; subst ha
    obtain ⟨L, hL, rfl⟩ := hd
    rw [← slicing_eq_iff] at hL
    obtain ⟨c', h1, h2⟩ := nbLoop_clear (flNbResetBody K n) (fun t => .reset t)
      (fun t ht ctx s B hR hc => nbResetBody_near hn hK hν hS ht hR hc) L
      (fun t ht => hv (.reset t) (List.mem_map.2 ⟨t, ht, rfl⟩)) c s B hR hc
    exact ⟨c', by simp only [forGen, hL, h1], h2⟩
  | g1 k T =>
    simp only [flNbAction, flNbArr, Option.map_map, Option.map_eq_some_iff] at ha
    obtain ⟨b, hb, rfl⟩ := ha
    exact nbG1_near hn hK hS k T b hb hd hv hA c s B hR
  | g2 k T =>
    simp only [flNbAction, flNbArr, Option.map_map, Option.map_eq_some_iff] at ha
    obtain ⟨b, hb, rfl⟩ := ha
    exact nbG2_near hn hK hS k T b hb hd hv hA c s B hR
  | g3 k T =>
    simp only [flNbAction, flNbArr, Option.map_map, Option.map_eq_some_iff] at ha
    obtain ⟨b, hb, rfl⟩ := ha
    exact nbG3_near hn hK hS k T b hb hd hv c s B hR

theorem nbRunGate_near {n : ℕ} (hn : n ≤ 64) (hK : NbAccurate K n ε ν Θ) (hν : 0 ≤ ν) (hS : Small ε Θ u)
    (hΘ : Real.pi / 2 ≤ Θ) (g : Gate) (es : List Elem) (hd : GateDenotes n g es) (hv : ∀ e ∈ es, e.Valid n)
    (hA : AnglesLE Θ es) (c : NbCtx) (s : MState) (B : ℝ) (hR : NbNear n c s B) (hc : AllClear ε ν Θ n es s B) :
    ∃ c', runGate (flNbAction K n) n recursionLimit g c = .ok c' ∧
      NbNear n c' (steps phSim n es s) (errBound ε ν Θ n es s B) :=
  runGate_by_methods (flNbAction K n) (NbNear n) hΘ (by rw [passErr_eq hS]; have := hS.u_nn; linarith)
    (fun g a es => flNbAction_near hn hK hν hS g a es) (fun _ _ _ _ h hB => FRel.mono h hB)
    (fun _ _ _ h => FRel.nonneg h)
    (fun g hg => by
      rcases g with k | k | k | _ | _ <;> first
        | (cases k <;> simp [flNbAction, flNbArr, nbBody1, nbBody2, nbBody3, flAction] at hg ⊢)
        | simp [flNbAction] at hg) recursionLimit g
    (by have := rank_le g; simp only [recursionLimit]; omega) es hd hv hA c s B hR hc

end

end Spec
