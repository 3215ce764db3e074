import Verif.NumbaKernels
import Verif.NumpyRefine

/-! Lemmas: one gate on the numba simulator refines the specification machine. -/

set_option linter.unusedSimpArgs false
set_option linter.unusedVariables false

namespace Blueqat

open Spec

noncomputable section

/-- The context represents the machine state, which is normalised if `P`. -/
structure NbRel (P : Prop) (n : ℕ) (ctx : NbCtx) (s : MState) : Prop where
  qubits : ctx.qubits = vec n s.psi
  cregs : ctx.cregs = cregList n s.creg
  rnd : ctx.rnd = s.rnd
  good : P → Good n s

variable {P : Prop}

theorem NbRel.of_psi {n : ℕ} {ctx : NbCtx} {s : MState} (h : NbRel P n ctx s) {q : Arr} {es : List Elem}
    (hu : ∀ e ∈ es, e.IsUnitary) (hv : ∀ e ∈ es, e.Valid n) (hq : q = vec n (unitaries phSim es s.psi)) :
    NbRel P n { ctx with qubits := q } (steps phSim n es s) := by
  have hg : P → Good n (steps phSim n es s) := fun hp => good_steps norm_phSim es hv s (h.good hp)
  rw [steps_unitary phSim n es hu] at hg ⊢
  exact ⟨hq, h.cregs, h.rnd, hg⟩

theorem nbP0_eq {n t : ℕ} (ht : t < n) (hn : n ≤ 64) (ψ : Vec) : nbP0 n t (vec n ψ) = prob n t false ψ := by
  have hN := loopCount (n := n) (k := 1) (by omega) (by omega) hn
  have hL := pairLoop1 ht hn
  rw [nbP0]
  simp only
  rw [show ((1 : U64) <<< ((BitVec.ofNat 64 n : U64) - 1).toNat).toNat = 2 ^ (n - 1) from hN]
  rw [← List.sum_eq_foldl]
  have e : ((List.range (2 ^ (n - 1))).map fun i =>
      ((vec n ψ).getD (nbShifted (((1 : U64) <<< t) - 1) (BitVec.ofNat 64 i)).toNat 0).re *
      ((vec n ψ).getD (nbShifted (((1 : U64) <<< t) - 1) (BitVec.ofNat 64 i)).toNat 0).re +
      ((vec n ψ).getD (nbShifted (((1 : U64) <<< t) - 1) (BitVec.ofNat 64 i)).toNat 0).im *
      ((vec n ψ).getD (nbShifted (((1 : U64) <<< t) - 1) (BitVec.ofNat 64 i)).toNat 0).im) =
      (List.range (2 ^ (n - 1))).map fun i => ‖ψ (insertZero t i)‖ ^ 2 := by
    apply List.map_congr_left
    intro i hi
    rw [List.mem_range] at hi
    rw [shifted_eq ht hn hi, vec_getD_lt ψ (hL.lt i hi), ← Complex.normSq_eq_norm_sq, Complex.normSq_apply]
  rw [e]
  have h2 : ((List.range (2 ^ (n - 1))).map fun i => ‖ψ (insertZero t i)‖ ^ 2).sum =
      ∑ i ∈ Finset.range (2 ^ (n - 1)), ‖ψ (insertZero t i)‖ ^ 2 := by
    have := list_sum_filter (2 ^ (n - 1)) (fun _ => true) (fun i => ‖ψ (insertZero t i)‖ ^ 2)
    simpa using this
  rw [h2, prob]
  refine Finset.sum_bij (fun i _ => insertZero t i) ?_ ?_ ?_ ?_
  · intro i hi
    rw [Finset.mem_range] at hi
    rw [Finset.mem_filter, Finset.mem_range]
    exact ⟨hL.lt i hi, (hL.sel i hi).2⟩
  · intro i hi j hj h; exact insertZero_inj t h
  · intro a ha
    rw [Finset.mem_filter, Finset.mem_range] at ha
    obtain ⟨i, hi, he⟩ := hL.surj a ha.1 rfl ha.2
    exact ⟨i, Finset.mem_range.2 hi, he⟩
  · intro i hi; rfl

theorem iters1_run {body : ℕ → ℕ → List Ins} {F G : ℂ → ℂ → ℂ} (hb : Acts body F G) {n t : ℕ} (ht : t < n)
    (hn : n ≤ 64) (ψ : Vec) : runIters (iters1 body n t) (vec n ψ) =
      vec n (fun a => if a.testBit t then G (ψ (flipBit t a)) (ψ a) else F (ψ a) (ψ (flipBit t a))) := by
  rw [iters1_eq body ht hn, (pairLoop1 ht hn).run ht hb]
  congr 1

theorem nbMeasureBody_refine {n t : ℕ} (hP : P) (ht : t < n) (hn : n ≤ 64) (ctx : NbCtx) (s : MState)
    (hR : NbRel P n ctx s) :
    ∃ ctx', nbMeasureBody n (t : ℤ) ctx = .ok ctx' ∧ NbRel P n ctx' ((Elem.meas t).step phSim n s) := by
  have hg := good_step norm_phSim (.meas t) ht s (hR.good hP)
  have h1 := prob_true_of_good (t := t) (hR.good hP)
  simp only [nbMeasureBody, if_pos (show (0:ℤ) ≤ t ∧ (t:ℤ) < n by omega), Int.toNat_natCast, hR.qubits, hR.rnd,
    hR.cregs, nbP0_eq ht hn]
  simp only [Elem.step] at hg ⊢
  by_cases h : s.rnd 0 < prob n t false s.psi
  · simp only [h, if_true] at hg ⊢
    have := setCreg_eq ht s.creg false
    simp only [Bool.toNat_false] at this
    rw [this, ok_bind, pure_ok]
    refine ⟨_, rfl, ?_, rfl, rfl, fun _ => hg⟩
    simp only [iters1_run (acts_insReduce0 _) ht hn]
    apply vec_congr; intro i hi
    simp only [collapse]
    by_cases hb : i.testBit t
    · simp [hb]
    · simp [hb]; rw [div_eq_mul_inv]
  · simp only [h, if_false] at hg ⊢
    have := setCreg_eq ht s.creg true
    simp only [Bool.toNat_true] at this
    rw [this, ok_bind, pure_ok]
    refine ⟨_, rfl, ?_, rfl, rfl, fun _ => hg⟩
    simp only [iters1_run (acts_insReduce1 _) ht hn]
    apply vec_congr; intro i hi
    simp only [collapse, h1]
    by_cases hb : i.testBit t
    · simp [hb]; rw [div_eq_mul_inv]
    · simp [hb]

theorem nbResetBody_refine {n t : ℕ} (hP : P) (ht : t < n) (hn : n ≤ 64) (ctx : NbCtx) (s : MState)
    (hR : NbRel P n ctx s) :
    ∃ ctx', nbResetBody n (t : ℤ) ctx = .ok ctx' ∧ NbRel P n ctx' ((Elem.reset t).step phSim n s) := by
  have hg := good_step norm_phSim (.reset t) ht s (hR.good hP)
  have h1 := prob_true_of_good (t := t) (hR.good hP)
  simp only [nbResetBody, if_pos (show (0:ℤ) ≤ t ∧ (t:ℤ) < n by omega), Int.toNat_natCast, hR.qubits, hR.rnd,
    nbP0_eq ht hn]
  simp only [Elem.step] at hg ⊢
  by_cases h : s.rnd 0 < prob n t false s.psi
  · simp only [h, if_true] at hg ⊢
    refine ⟨_, rfl, ?_, hR.cregs, rfl, fun _ => hg⟩
    simp only [iters1_run (acts_insReduce0 _) ht hn]
    apply vec_congr; intro i hi
    simp only [collapse]
    by_cases hb : i.testBit t
    · simp [hb]
    · simp [hb]; rw [div_eq_mul_inv]
  · simp only [h, if_false] at hg ⊢
    refine ⟨_, rfl, ?_, hR.cregs, rfl, fun _ => hg⟩
    simp only [iters1_run (acts_insReset1 _) ht hn]
    apply vec_congr; intro i hi
    simp only [collapse, h1, app, mX]
    by_cases hb : i.testBit t
    · simp [hb]
    · simp [hb]; rw [div_eq_mul_inv]

theorem nbArr_refine {n : ℕ} (hn : n ≤ 64) (g : Gate) (f : Arr → Except PyErr Arr) (hf : nbArr n g = some f)
    (es : List Elem) (hd : GateDenotes n g es) (hv : ∀ e ∈ es, e.Valid n) (ψ : Vec) :
    f (vec n ψ) = .ok (vec n (unitaries phSim es ψ)) := by
  cases g with
  | measure T => simp [nbArr] at hf
  | reset T => simp [nbArr] at hf
  | g1 k T =>
    obtain ⟨L, hL, rfl⟩ := hd
    simp only [nbArr, Option.map_eq_some_iff] at hf
    obtain ⟨b, hb, rfl⟩ := hf
    obtain ⟨q, h1, h2⟩ := forGen_refine hL (nbKernel1 b n) (fun t ψ => app (matrix1 k) t ψ)
      (fun s ψ => s = vec n ψ) (by
        rintro t ht q ψ hq
        subst hq
        exact ⟨_, nbKernel1_vec (nbBody1_acts hb) (hv (.one k t) (List.mem_map.2 ⟨t, ht, rfl⟩)) hn ψ, rfl⟩)
      (vec n ψ) ψ rfl
    beta_reduce; rw [h1, h2, unitaries_map]; rfl
  | g2 k T =>
    obtain ⟨L, hL, rfl⟩ := hd
    simp only [nbArr, Option.map_eq_some_iff] at hf
    obtain ⟨b, hb, rfl⟩ := hf
    obtain ⟨M, hM, hop⟩ := nbBody2_acts hb
    obtain ⟨q, h1, h2⟩ := forPairs_refine hL (fun c t q => nbKernelC b n [c, t] q) (fun c t ψ => op2 phSim k c t ψ)
      (fun s ψ => s = vec n ψ) (by
        rintro p hp q ψ hq
        subst hq
        obtain ⟨v1, v2, v3⟩ := hv (.two k p.1 p.2) (List.mem_map.2 ⟨p, hp, rfl⟩)
        have := nbKernelC_vec hM (n := n) (t := p.2) (cs := [p.1]) hn (by simp [v1, v2]) (by simp [v3]) ψ
        refine ⟨_, this, ?_⟩
        apply vec_congr; intro i hi
        simp [hop, ctrl, allSet])
      (vec n ψ) ψ rfl
    beta_reduce; rw [h1, h2, unitaries_map]; rfl
  | g3 k T =>
    obtain ⟨a, b, c, rfl, rfl⟩ := hd
    obtain ⟨h1, h2, h3, h4, h5, h6⟩ := hv _ (List.mem_singleton.2 rfl)
    simp only [nbArr, Option.map_eq_some_iff] at hf
    obtain ⟨bd, hb, rfl⟩ := hf
    obtain ⟨M, hM, hop⟩ := nbBody3_acts hb
    have := nbKernelC_vec hM (n := n) (t := c) (cs := [a, b]) hn (by simp [h1, h2, h3]) (by simp [h4, h5, h6]) ψ
    have e : nbIntArray (.tup [.atom (.int a), .atom (.int b), .atom (.int c)]) =
      .ok (([a, b] ++ [c]).map (fun q : ℕ => (q : ℤ))) := rfl
    beta_reduce; rw [e, ok_bind, this]
    congr 1
    apply vec_congr; intro i hi
    simp only [unitaries, List.foldl_cons, List.foldl_nil, Elem.unitary, hop, ctrl, allSet]
    by_cases ha : i.testBit a <;> by_cases hb : i.testBit b <;> simp [ha, hb]

theorem nbAction_refine {n : ℕ} (hn : n ≤ 64) (g : Gate) (a : NbCtx → Except PyErr NbCtx) (es : List Elem)
    (ha : nbAction n g = some a) (hd : GateDenotes n g es) (hv : ∀ e ∈ es, e.Valid n)
    (hq : ∀ e ∈ es, P ∨ e.IsUnitary) (ctx : NbCtx) (s : MState)
    (hR : NbRel P n ctx s) : ∃ ctx', a ctx = .ok ctx' ∧ NbRel P n ctx' (steps phSim n es s) := by
  have huni : (∀ e ∈ es, e.IsUnitary) → (nbArr n g).map (fun f (ctx : NbCtx) =>
      (f ctx.qubits).map fun q => ({ ctx with qubits := q } : NbCtx)) = some a →
      ∃ ctx', a ctx = .ok ctx' ∧ NbRel P n ctx' (steps phSim n es s) := by
    intro hu h
    rw [Option.map_eq_some_iff] at h
    obtain ⟨f, hf, rfl⟩ := h
    refine ⟨{ ctx with qubits := vec n (unitaries phSim es s.psi) }, ?_, hR.of_psi hu hv rfl⟩
    simp only [hR.qubits, nbArr_refine hn g f hf es hd hv]
    rfl
  cases g with
  | measure T =>
    obtain ⟨L, hL, rfl⟩ := hd
    simp only [nbAction, Option.some.injEq] at ha
    subst ha
    obtain ⟨c, h1, h2⟩ := forGen_refine hL (nbMeasureBody n) (fun t s => (Elem.meas t).step phSim n s) (NbRel P n)
      (fun t ht c s hR => nbMeasureBody_refine ((hq _ (List.mem_map.2 ⟨t, ht, rfl⟩)).resolve_right id)
        (hv (.meas t) (List.mem_map.2 ⟨t, ht, rfl⟩)) hn c s hR) ctx s hR
    refine ⟨c, h1, ?_⟩
    simp only [steps, List.foldl_map]
    exact h2
  | reset T =>
    obtain ⟨L, hL, rfl⟩ := hd
    simp only [nbAction, Option.some.injEq] at ha
    subst ha
    obtain ⟨c, h1, h2⟩ := forGen_refine hL (nbResetBody n) (fun t s => (Elem.reset t).step phSim n s) (NbRel P n)
      (fun t ht c s hR => nbResetBody_refine ((hq _ (List.mem_map.2 ⟨t, ht, rfl⟩)).resolve_right id)
        (hv (.reset t) (List.mem_map.2 ⟨t, ht, rfl⟩)) hn c s hR) ctx s hR
    refine ⟨c, h1, ?_⟩
    simp only [steps, List.foldl_map]
    exact h2
  | g1 k T =>
    refine huni ?_ ha
    obtain ⟨L, hL, rfl⟩ := hd
    simp [Elem.IsUnitary]
  | g2 k T =>
    refine huni ?_ ha
    obtain ⟨L, hL, rfl⟩ := hd
    exact unitary_two k L
  | g3 k T =>
    refine huni ?_ ha
    obtain ⟨a, b, c, rfl, rfl⟩ := hd
    simp [Elem.IsUnitary]

/-- One gate with valid targets, native or by fallback, refines the specification. -/
theorem nbRunGate_refine {n : ℕ} (hn : n ≤ 64) (g : Gate) (es : List Elem) (hd : GateDenotes n g es)
    (hv : ∀ e ∈ es, e.Valid n) (hq : ∀ e ∈ es, P ∨ e.IsUnitary) (ctx : NbCtx) (s : MState)
    (hR : NbRel P n ctx s) : ∃ ctx', nbRunGate n g ctx = .ok ctx' ∧ NbRel P n ctx' (steps phSim n es s) := by
  refine runGate_refine (ph := phSim) (nbAction n) (NbRel P n) P
    (fun g a es ha hd hv hq ctx s hR => nbAction_refine hn g a es ha hd hv hq ctx s hR) ?_ ?_ ?_ recursionLimit g
    (by have := rank_le g; simp only [recursionLimit]; omega) es hd hv hq ctx s hR
  · intro g hg
    rcases g with k | k | k | _ | _ <;> first
      | (cases k <;> simp [nbAction, nbArr, nbBody1, nbBody2, nbBody3, Gate.hasFallback, G1.fallbackOn, G2.fallbackOn] at hg ⊢)
      | simp [nbAction] at hg
  · intro θ T; simp [nbAction, nbArr, nbBody1]
  · intro lam T _; rfl

end

end Blueqat
