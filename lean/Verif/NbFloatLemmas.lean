import Verif.Spec.RoundingNumba
import Verif.NumbaRefine
import Verif.FloatRefine

/-! Lemmas: the compiled numba kernels stay near the textbook operations. -/

set_option linter.unusedSimpArgs false
set_option linter.unusedVariables false

namespace Spec

open Blueqat

noncomputable section

/-! ## Iterations -/

macro "compiled_eff" d:ident : tactic => `(tactic| (
  intro i0 i1 q hne h0 h1 a
  simp only [runIter, compiled, $d:ident, List.zipIdx_cons, List.zipIdx_nil, List.map_cons, List.map_nil, List.foldl_cons,
    List.foldl_nil, Ins.exec, getD_set', List.length_set]
  have hne' := hne.symm
  by_cases ha0 : a = i0
  · subst ha0; simp [hne, hne', h0]
  · by_cases ha1 : a = i1
    · subst ha1; simp [hne, hne', h1]
    · simp [ha0, ha1, Ne.symm ha0, Ne.symm ha1]))

variable (S : ℕ → ℕ → ℂ → ℂ → ℂ)

theorem at_insX : ActsAt (compiled S insX) (fun a t u => S 2 a t u) (fun a t u => S 3 a t u) := by
  constructor
  · compiled_eff insX
  · rintro i0 i1 a ⟨i, hi, rfl⟩
    simp only [compiled, insX, List.zipIdx_cons, List.zipIdx_nil, List.map_cons, List.map_nil, List.mem_cons,
      List.not_mem_nil, or_false] at hi
    rcases hi with hi | hi | hi | hi <;> subst hi <;> simp [address]

theorem at_insY : ActsAt (compiled S insY) (fun a t u => S 2 a t u) (fun a t u => S 3 a t u) := by
  constructor
  · compiled_eff insY
  · rintro i0 i1 a ⟨i, hi, rfl⟩
    simp only [compiled, insY, List.zipIdx_cons, List.zipIdx_nil, List.map_cons, List.map_nil, List.mem_cons,
      List.not_mem_nil, or_false] at hi
    rcases hi with hi | hi | hi | hi <;> subst hi <;> simp [address]

theorem at_insH : ActsAt (compiled S insH) (fun a t u => S 2 a t u) (fun a t u => S 3 a t u) := by
  constructor
  · compiled_eff insH
  · rintro i0 i1 a ⟨i, hi, rfl⟩
    simp only [compiled, insH, List.zipIdx_cons, List.zipIdx_nil, List.map_cons, List.map_nil, List.mem_cons,
      List.not_mem_nil, or_false] at hi
    rcases hi with hi | hi | hi | hi <;> subst hi <;> simp [address]

theorem at_insRot (x y z w : ℂ) :
    ActsAt (compiled S (insRot x y z w)) (fun a t u => S 2 a t u) (fun a t u => S 3 a t u) := by
  constructor
  · compiled_eff insRot
  · rintro i0 i1 a ⟨i, hi, rfl⟩
    simp only [compiled, insRot, List.zipIdx_cons, List.zipIdx_nil, List.map_cons, List.map_nil, List.mem_cons,
      List.not_mem_nil, or_false] at hi
    rcases hi with hi | hi | hi | hi <;> subst hi <;> simp [address]

theorem at_insRY (x y : ℂ) : ActsAt (compiled S (insRY x y)) (fun a t u => S 2 a t u) (fun a t u => S 3 a t u) := by
  constructor
  · compiled_eff insRY
  · rintro i0 i1 a ⟨i, hi, rfl⟩
    simp only [compiled, insRY, List.zipIdx_cons, List.zipIdx_nil, List.map_cons, List.map_nil, List.mem_cons,
      List.not_mem_nil, or_false] at hi
    rcases hi with hi | hi | hi | hi <;> subst hi <;> simp [address]

theorem at_insRZ (x y : ℂ) : ActsAt (compiled S (insRZ x y)) (fun a t _ => S 1 a t 0) (fun a _ u => S 3 a u 0) := by
  constructor
  · compiled_eff insRZ
  · rintro i0 i1 a ⟨i, hi, rfl⟩
    simp only [compiled, insRZ, List.zipIdx_cons, List.zipIdx_nil, List.map_cons, List.map_nil, List.mem_cons,
      List.not_mem_nil, or_false] at hi
    rcases hi with hi | hi | hi | hi <;> subst hi <;> simp [address]

theorem at_insDiag (z : ℂ) : ActsAt (compiled S (insDiag z)) (fun _ t _ => t) (fun a _ u => S 1 a u 0) := by
  constructor
  · compiled_eff insDiag
  · rintro i0 i1 a ⟨i, hi, rfl⟩
    simp only [compiled, insDiag, List.zipIdx_cons, List.zipIdx_nil, List.map_cons, List.map_nil, List.mem_cons,
      List.not_mem_nil, or_false] at hi
    rcases hi with hi | hi <;> subst hi <;> simp [address]

theorem at_insReduce0 (z : ℂ) :
    ActsAt (compiled S (insReduce0 z)) (fun a t _ => S 1 a t 0) (fun a t _ => S 2 a t 0) := by
  constructor
  · compiled_eff insReduce0
  · rintro i0 i1 a ⟨i, hi, rfl⟩
    simp only [compiled, insReduce0, List.zipIdx_cons, List.zipIdx_nil, List.map_cons, List.map_nil, List.mem_cons,
      List.not_mem_nil, or_false] at hi
    rcases hi with hi | hi | hi <;> subst hi <;> simp [address]

theorem at_insReduce1 (z : ℂ) :
    ActsAt (compiled S (insReduce1 z)) (fun a _ u => S 2 a u 0) (fun a _ u => S 1 a u 0) := by
  constructor
  · compiled_eff insReduce1
  · rintro i0 i1 a ⟨i, hi, rfl⟩
    simp only [compiled, insReduce1, List.zipIdx_cons, List.zipIdx_nil, List.map_cons, List.map_nil, List.mem_cons,
      List.not_mem_nil, or_false] at hi
    rcases hi with hi | hi | hi <;> subst hi <;> simp [address]

theorem at_insReset1 (z : ℂ) :
    ActsAt (compiled S (insReset1 z)) (fun a _ u => S 1 a 0 u) (fun a _ u => S 2 a 0 u) := by
  constructor
  · compiled_eff insReset1
  · rintro i0 i1 a ⟨i, hi, rfl⟩
    simp only [compiled, insReset1, List.zipIdx_cons, List.zipIdx_nil, List.map_cons, List.map_nil, List.mem_cons,
      List.not_mem_nil, or_false] at hi
    rcases hi with hi | hi | hi <;> subst hi <;> simp [address]

/-! ## Near the exact functions -/

/-- The exact functions of a body are determined by what it does. -/
theorem acts_unique {b : ℕ → ℕ → List Ins} {f g f' g' : ℂ → ℂ → ℂ} (h : Acts b f g) (h' : Acts b f' g') (x y : ℂ) :
    f x y = f' x y ∧ g x y = g' x y := by
  have e : ∀ a, _ := fun a => (h.eff 0 1 [x, y] (by norm_num) (by simp) (by simp) a).symm.trans
    (h'.eff 0 1 [x, y] (by norm_num) (by simp) (by simp) a)
  exact ⟨by simpa using e 0, by simpa using e 1⟩

/-- Compiled versions of the body act near its exact functions. -/
def NearOf (b : ℕ → ℕ → List Ins) : Prop :=
  ∃ f g, Acts b f g ∧ ∀ S C, 0 ≤ C → StoresNear S b C → ∃ F G, ActsAt (compiled S b) F G ∧
    ∀ a x y, ‖F a x y - f x y‖ ≤ C * (‖x‖ + ‖y‖) ∧ ‖G a x y - g x y‖ ≤ C * (‖x‖ + ‖y‖)

theorem nearOf_insX : NearOf insX :=
  ⟨_, _, acts_insX, fun S C _ h => ⟨_, _, at_insX S, fun a x y => ⟨h a 0 2 a _ rfl x y, h 0 a 3 a _ rfl x y⟩⟩⟩
theorem nearOf_insY : NearOf insY :=
  ⟨_, _, acts_insY, fun S C _ h => ⟨_, _, at_insY S, fun a x y => ⟨h a 0 2 a _ rfl x y, h 0 a 3 a _ rfl x y⟩⟩⟩
theorem nearOf_insH : NearOf insH :=
  ⟨_, _, acts_insH, fun S C _ h => ⟨_, _, at_insH S, fun a x y => ⟨h a 0 2 a _ rfl x y, h 0 a 3 a _ rfl x y⟩⟩⟩
theorem nearOf_insRot (p q r s : ℂ) : NearOf (insRot p q r s) :=
  ⟨_, _, acts_insRot p q r s, fun S C _ h =>
    ⟨_, _, at_insRot S p q r s, fun a x y => ⟨h a 0 2 a _ rfl x y, h 0 a 3 a _ rfl x y⟩⟩⟩
theorem nearOf_insRY (p q : ℂ) : NearOf (insRY p q) :=
  ⟨_, _, acts_insRY p q, fun S C _ h =>
    ⟨_, _, at_insRY S p q, fun a x y => ⟨h a 0 2 a _ rfl x y, h 0 a 3 a _ rfl x y⟩⟩⟩
theorem nearOf_insRZ (p q : ℂ) : NearOf (insRZ p q) := by
  refine ⟨_, _, acts_insRZ p q, fun S C hC h => ⟨_, _, at_insRZ S p q, fun a x y => ⟨?_, ?_⟩⟩⟩
  · refine (h a 0 1 a _ rfl x 0).trans (mul_le_mul_of_nonneg_left ?_ hC)
    simp
  · refine (h 0 a 3 a _ rfl y 0).trans (mul_le_mul_of_nonneg_left ?_ hC)
    simp
theorem nearOf_insDiag (z : ℂ) : NearOf (insDiag z) := by
  refine ⟨_, _, acts_insDiag z, fun S C hC h => ⟨_, _, at_insDiag S z, fun a x y => ⟨?_, ?_⟩⟩⟩
  · simp only [sub_self, norm_zero]; positivity
  · refine (h 0 a 1 a _ rfl y 0).trans (mul_le_mul_of_nonneg_left ?_ hC)
    simp

theorem nearOf_body1 {k : G1} {b : ℕ → ℕ → List Ins} (h : nbBody1 k = some b) : NearOf b := by
  cases k <;> simp only [nbBody1, Option.some.injEq, reduceCtorEq] at h <;> subst h <;>
    first | exact nearOf_insX | exact nearOf_insY | exact nearOf_insH | exact nearOf_insRot _ _ _ _ |
      exact nearOf_insRY _ _ | exact nearOf_insRZ _ _ | exact nearOf_insDiag _

theorem nearOf_body2 {k : G2} {b : ℕ → ℕ → List Ins} (h : nbBody2 k = some b) : NearOf b := by
  cases k <;> simp only [nbBody2, Option.some.injEq, reduceCtorEq] at h <;> subst h <;>
    first | exact nearOf_insX | exact nearOf_insY | exact nearOf_insH | exact nearOf_insRot _ _ _ _ |
      exact nearOf_insRY _ _ | exact nearOf_insRZ _ _ | exact nearOf_insDiag _

theorem nearOf_body3 {k : G3} {b : ℕ → ℕ → List Ins} (h : nbBody3 k = some b) : NearOf b := by
  cases k <;> simp only [nbBody3, Option.some.injEq, reduceCtorEq] at h <;> subst h <;>
    first | exact nearOf_insX | exact nearOf_insDiag _

/-- The loop of a compiled one-qubit kernel as a map of states. -/
def appA (F G : ℕ → ℂ → ℂ → ℂ) (t : ℕ) (ψ : Vec) : Vec := fun a =>
  if a.testBit t then G a (ψ (flipBit t a)) (ψ a) else F a (ψ a) (ψ (flipBit t a))

theorem gap_appA {n t : ℕ} (ht : t < n) {F G : ℕ → ℂ → ℂ → ℂ} {M : M2} {C : ℝ} (hC : 0 ≤ C)
    (h0 : ∀ a x y, ‖F a x y - (M.a * x + M.b * y)‖ ≤ C * (‖x‖ + ‖y‖))
    (h1 : ∀ a x y, ‖G a x y - (M.c * x + M.d * y)‖ ≤ C * (‖x‖ + ‖y‖)) (ψ : Vec) :
    gap n (appA F G t ψ) (app M t ψ) ≤ 2 * C * Real.sqrt (normSqN n ψ) := by
  have key : normSqN n (fun i => appA F G t ψ i - app M t ψ i) ≤ (2 * C) ^ 2 * normSqN n ψ := by
    rw [normSqN, normSqN, sum_pair ht, sum_pair ht (fun i => ‖ψ i‖ ^ 2), Finset.mul_sum]
    refine Finset.sum_le_sum fun i hi => ?_
    have hb := (Finset.mem_filter.1 hi).2
    have e0 := h0 i (ψ i) (ψ (flipBit t i))
    have e1 := h1 (flipBit t i) (ψ i) (ψ (flipBit t i))
    simp only [appA, app, testBit_flipBit_self, hb, flipBit_flipBit, Bool.not_false, if_true, Bool.false_eq_true, if_false]
    have q0 := pow_le_pow_left₀ (norm_nonneg _) e0 2
    have q1 := pow_le_pow_left₀ (norm_nonneg _) e1 2
    have hx := norm_nonneg (ψ i)
    have hy := norm_nonneg (ψ (flipBit t i))
    have : C ^ 2 * (‖ψ i‖ - ‖ψ (flipBit t i)‖) ^ 2 ≥ 0 := by positivity
    nlinarith
  rw [gap]
  refine (Real.sqrt_le_sqrt key).trans ?_
  rw [Real.sqrt_mul (by positivity), Real.sqrt_sq (by positivity)]

/-- What a compiled kernel does to states of `n` qubits, near the matrix `M`. -/
theorem compiled_kernel {n : ℕ} (hn : n ≤ 64) {b : ℕ → ℕ → List Ins} {M : M2} (hb : ActsM b M) (hN : NearOf b)
    {S : ℕ → ℕ → ℂ → ℂ → ℂ} {C : ℝ} (hC : 0 ≤ C) (hS : StoresNear S b C) : ∃ A : ℕ → Vec → Vec,
    (∀ t < n, ∀ ψ, gap n (A t ψ) (app M t ψ) ≤ 2 * C * Real.sqrt (normSqN n ψ)) ∧
    (∀ t < n, ∀ ψ, nbKernel1 (compiled S b) n (t : ℤ) (vec n ψ) = .ok (vec n (A t ψ))) ∧
    (∀ t cs, (∀ x ∈ cs ++ [t], x < n) → (cs ++ [t]).Nodup → ∀ ψ,
      nbKernelC (compiled S b) n ((cs ++ [t]).map (fun q : ℕ => (q : ℤ))) (vec n ψ) =
        .ok (vec n (fun a => if allSet cs a then A t ψ a else ψ a))) := by
  obtain ⟨f, g, hfg, hnear⟩ := hN
  obtain ⟨F, G, hFG, hd⟩ := hnear S C hC hS
  refine ⟨appA F G, fun t ht ψ => gap_appA ht hC (fun a x y => ?_) (fun a x y => ?_) ψ, fun t ht ψ => ?_, ?_⟩
  · rw [← (acts_unique hfg hb x y).1]; exact (hd a x y).1
  · rw [← (acts_unique hfg hb x y).2]; exact (hd a x y).2
  · rw [nbKernel1, if_pos (by omega), Int.toNat_natCast, iters1_eq _ ht hn, (pairLoop1 ht hn).run ht hFG]
    congr 1
  · intro t cs hx hnd ψ
    have hk : (cs ++ [t]).length ≤ n := by
      have h1 : (cs ++ [t]).toFinset ⊆ Finset.range n := by
        intro x hxm; rw [List.mem_toFinset] at hxm; exact Finset.mem_range.2 (hx x hxm)
      have := Finset.card_le_card h1
      rwa [List.toFinset_card_of_nodup hnd, Finset.card_range] at this
    rw [nbKernelC, if_pos]
    · have e1 : ((cs ++ [t]).map (fun q : ℕ => (q : ℤ))).getLast? = some (t : ℤ) := by simp
      have e2 : (((cs ++ [t]).map (fun q : ℕ => (q : ℤ))).dropLast.map Int.toNat) = cs := by
        rw [List.map_append, List.map_singleton, List.dropLast_concat, List.map_map]
        simp [Function.comp_def]
      rw [e1]
      simp only [e2, Int.toNat_natCast]
      rw [itersC_eq _ hn hx hnd hk, (pairLoopC hn hx hnd).run (hx t (by simp)) hFG]
      congr 1
    · refine ⟨?_, ?_⟩
      · intro x hxm
        obtain ⟨q, hq, rfl⟩ := List.mem_map.1 hxm
        have := hx q hq; omega
      · exact hnd.map (fun a b h => by simpa using h)

end

end Spec
