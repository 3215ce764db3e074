import Verif.AngleLemmas
import Verif.Props.Sympy
import Mathlib.Algebra.Order.Round

/-!
# C84 (rounding angles to multiples of pi in `to_unitary`)
-/

set_option linter.unusedSimpArgs false
set_option linter.unusedVariables false

namespace Blueqat

open Spec

noncomputable section

/-- What is assumed of `sympy.nsimplify`: for numbers up to `X`, a fraction with a denominator below `10^12` that it
returns is within `ε` of the number. -/
def GoodFractions (nsimp : ℝ → ℝ × ℝ) (X ε : ℝ) : Prop :=
  ∀ x, |x| ≤ X → (nsimp x).2 < 10 ^ 12 → |(nsimp x).1 / (nsimp x).2 - x| ≤ ε

/-- `_angle_simplify` changes an angle by at most `pi` times the error of the fraction. -/
theorem C84_angle (isFloat : ℝ → Bool) (nsimp : ℝ → ℝ × ℝ) (Θ ε : ℝ) (hε : 0 ≤ ε)
    (hs : GoodFractions nsimp (Θ / Real.pi) ε) (x : ℝ) (hx : |x| ≤ Θ) :
    |angleSimplify isFloat nsimp x - x| ≤ Real.pi * ε := by
  have hpi := Real.pi_pos
  have h0 : |x - x| ≤ Real.pi * ε := by rw [sub_self, abs_zero]; positivity
  simp only [angleSimplify]
  split_ifs with h1 h2
  · have := hs (x / Real.pi) (by rw [abs_div, abs_of_pos hpi]; gcongr) (by norm_num at h2 ⊢; exact h2)
    have e : Real.pi * (nsimp (x / Real.pi)).1 / (nsimp (x / Real.pi)).2 - x =
        Real.pi * ((nsimp (x / Real.pi)).1 / (nsimp (x / Real.pi)).2 - x / Real.pi) := by
      field_simp
    rw [e, abs_mul, abs_of_pos hpi]
    exact mul_le_mul_of_nonneg_left this hpi.le
  · exact h0
  · exact h0

/-- Angles that are not floats, and floats for which only a fraction with a large denominator is found, are kept;
other floats become that multiple of pi. -/
theorem C84_cases (isFloat : ℝ → Bool) (nsimp : ℝ → ℝ × ℝ) (x : ℝ) :
    (isFloat x = false → angleSimplify isFloat nsimp x = x) ∧
    (10 ^ 12 ≤ (nsimp (x / Real.pi)).2 → angleSimplify isFloat nsimp x = x) ∧
    ∀ p q : ℝ, isFloat x = true → nsimp (x / Real.pi) = (p, q) → q < 10 ^ 12 →
      angleSimplify isFloat nsimp x = Real.pi * p / q := by
  refine ⟨fun h => by simp [angleSimplify, h], fun h => ?_, fun p q h1 h2 h3 => ?_⟩
  · have : ¬ (nsimp (x / Real.pi)).2 < 1000000000000 := by norm_num at h ⊢; exact h
    simp only [angleSimplify, if_neg this, ite_self]
  · have : q < 1000000000000 := by norm_num at h3; exact h3
    simp only [angleSimplify, h1, h2, if_pos this, if_true]

/-- The matrix `to_unitary` computes with rounded angles, applied to any vector, is within
`pi * ε * (weights of the operations)` times the length of the vector of what the operations do to it. -/
theorem C84_vector (isFloat : ℝ → Bool) (nsimp : ℝ → ℝ × ℝ) (Θ ε : ℝ) (hε : 0 ≤ ε) (hΘ : Real.pi / 2 ≤ Θ)
    (hs : GoodFractions nsimp (Θ / Real.pi) ε)
    (n : ℕ) (hn : 0 < n) (gates : List Gate) (es : List Elem) (hd : GatesDenote n gates es)
    (hv : ∀ e ∈ es, e.Valid n) (hu : ∀ e ∈ es, e.IsUnitary) (hz : NoCcz gates) (hr : NoRepeat n gates)
    (hA : ∀ e ∈ es, ∀ x ∈ e.angles, |x| ≤ Θ) :
    ∃ M, syRunA (angleSimplify isFloat nsimp) n gates = .ok M ∧ M.dim = 2 ^ n ∧
      ∀ ψ : Vec, Real.sqrt (normSqN n fun i => (∑ j ∈ Finset.range (2 ^ n), M.ent i j * ψ j) - unitaries phSim es ψ i) ≤
        Real.pi * ε * weights es * Real.sqrt (normSqN n ψ) := by
  have key : ∀ ψ, ∃ M, runGates (syActionA (angleSimplify isFloat nsimp) n) n recursionLimit gates (SMat.eye (2 ^ n)) = .ok M ∧
      Near ψ n M (unitaries phSim es ψ) (0 + weights es * (Real.pi * ε) * Real.sqrt (normSqN n ψ)) := fun ψ =>
    runGates_near hn (by have := Real.pi_pos; positivity) hΘ (C84_angle isFloat nsimp Θ ε hε hs) ψ gates es hd hv hu
      (syOk_of hr hz) hA (SMat.eye (2 ^ n)) ψ 0
      ⟨rfl, by rw [gap_congr (fun i hi => (mv_eye ψ i hi).symm) (fun i _ => rfl), gap_self]⟩
  obtain ⟨M, hM, hR⟩ := key 0
  refine ⟨M, hM, hR.dim, fun ψ => ?_⟩
  obtain ⟨M', hM', hR'⟩ := key ψ
  obtain rfl : M' = M := by rw [hM] at hM'; exact (Except.ok.inj hM').symm
  refine hR'.near.trans (le_of_eq (by ring))

/-- Every entry of the matrix is that close to the entry of the operations' matrix, and the weights are at most seven
per operation. -/
theorem C84_entries (isFloat : ℝ → Bool) (nsimp : ℝ → ℝ × ℝ) (Θ ε : ℝ) (hε : 0 ≤ ε) (hΘ : Real.pi / 2 ≤ Θ)
    (hs : GoodFractions nsimp (Θ / Real.pi) ε)
    (n : ℕ) (hn : 0 < n) (gates : List Gate) (es : List Elem) (hd : GatesDenote n gates es)
    (hv : ∀ e ∈ es, e.Valid n) (hu : ∀ e ∈ es, e.IsUnitary) (hz : NoCcz gates) (hr : NoRepeat n gates)
    (hA : ∀ e ∈ es, ∀ x ∈ e.angles, |x| ≤ Θ) :
    ∃ M, syRunA (angleSimplify isFloat nsimp) n gates = .ok M ∧ M.dim = 2 ^ n ∧
      (∀ i < 2 ^ n, ∀ j < 2 ^ n, ‖M.ent i j - unitaries phSim es (basis j) i‖ ≤ Real.pi * ε * weights es) ∧
      Real.pi * ε * weights es ≤ 7 * Real.pi * ε * es.length := by
  obtain ⟨M, h1, h2, h3⟩ := C84_vector isFloat nsimp Θ ε hε hΘ hs n hn gates es hd hv hu hz hr hA
  refine ⟨M, h1, h2, fun i hi j hj => ?_, ?_⟩
  · have hb : normSqN n (basis j) = 1 := by
      rw [normSqN, Finset.sum_eq_single j]
      · simp [basis]
      · intro k _ hk; simp [basis, hk]
      · intro h; exact absurd (Finset.mem_range.2 hj) h
    have h4 := h3 (basis j)
    rw [hb, Real.sqrt_one, mul_one] at h4
    refine le_trans ?_ h4
    rw [← Real.sqrt_sq (norm_nonneg (M.ent i j - unitaries phSim es (basis j) i))]
    refine Real.sqrt_le_sqrt ?_
    rw [normSqN]
    refine le_trans (le_of_eq ?_) (Finset.single_le_sum (f := fun i =>
      ‖(∑ k ∈ Finset.range (2 ^ n), M.ent i k * basis j k) - unitaries phSim es (basis j) i‖ ^ 2)
      (fun _ _ => by positivity) (Finset.mem_range.2 hi))
    simp [basis, hj]
  · have hw : weights es ≤ 7 * es.length := by
      clear hd hv hu hA h1 h3
      induction es with
      | nil => simp [weights]
      | cons e es ih =>
        rw [weights_cons, List.length_cons]
        have := weight_le e
        push_cast; linarith
    have hp : 0 ≤ Real.pi * ε := by have := Real.pi_pos; positivity
    calc Real.pi * ε * weights es ≤ Real.pi * ε * (7 * es.length) := mul_le_mul_of_nonneg_left hw hp
      _ = _ := by ring

theorem syActionA_id (n : ℕ) : syActionA id n = syAction n := by
  funext g
  cases g with
  | g1 k T =>
    have : k.simplified id = k := by cases k <;> rfl
    simp only [syActionA, this, syAction]
  | g2 k T => rfl
  | g3 k T => rfl
  | measure T => rfl
  | reset T => rfl

/-- When no angle is a float, `to_unitary` is the exact one of C24. -/
theorem C84_exact (nsimp : ℝ → ℝ × ℝ) (n : ℕ) (gates : List Gate) :
    syRunA (angleSimplify (fun _ => false) nsimp) n gates = syRun n gates false := by
  have : angleSimplify (fun _ => false) nsimp = id := by funext x; simp [angleSimplify]
  rw [this, syRunA, syActionA_id, syRun]
  cases runGates (syAction n) n recursionLimit gates (SMat.eye (2 ^ n)) <;> rfl

/-- Rounding to multiples of `10^-6` is a `nsimplify` with an error of `10^-6`, and the circuit
`Circuit(2).rx(0.3)[0].cu1(0.7)[0, 1]` meets the other hypotheses. -/
example : GoodFractions (fun x => ((round (x * 10 ^ 6) : ℤ), 10 ^ 6)) (Real.pi / Real.pi) (1 / 10 ^ 6) ∧
    Real.pi / 2 ≤ Real.pi ∧
    GatesDenote 2 [on1 (.rx 0.3) ((0 : ℕ) : ℤ), on2 (.cu1 0.7) ((0 : ℕ) : ℤ) ((1 : ℕ) : ℤ)] [.one (.rx 0.3) 0, .two (.cu1 0.7) 0 1] ∧
    NoCcz [on1 (.rx 0.3) ((0 : ℕ) : ℤ), on2 (.cu1 0.7) ((0 : ℕ) : ℤ) ((1 : ℕ) : ℤ)] ∧
    NoRepeat 2 [on1 (.rx 0.3) ((0 : ℕ) : ℤ), on2 (.cu1 0.7) ((0 : ℕ) : ℤ) ((1 : ℕ) : ℤ)] ∧
    (∀ e ∈ ([.one (.rx 0.3) 0, .two (.cu1 0.7) 0 1] : List Elem), ∀ x ∈ e.angles, |x| ≤ Real.pi) ∧
    weights [.one (.rx 0.3) 0, .two (.cu1 0.7) 0 1] = 2 := by
  have hpi := Real.two_le_pi
  refine ⟨?_, by linarith, on1_denote _ 0 (on2_denote _ (by norm_num) rfl), ?_, ?_, ?_, ?_⟩
  · intro x _ _
    have h := abs_sub_round (x * 10 ^ 6)
    have e : ((round (x * 10 ^ 6) : ℤ) : ℝ) / 10 ^ 6 - x = -(x * 10 ^ 6 - (round (x * 10 ^ 6) : ℤ)) / 10 ^ 6 := by
      field_simp; ring
    simp only
    rw [e, abs_div, abs_neg, abs_of_pos (by norm_num : (0 : ℝ) < 10 ^ 6)]
    rw [div_le_div_iff_of_pos_right (by norm_num)]; exact h.trans (by norm_num)
  · intro T h; simp [on1, on2] at h
  · intro k T L hg hL
    simp only [on1, on2, List.mem_cons, Gate.g1.injEq, reduceCtorEq, List.not_mem_nil, or_false] at hg
    obtain ⟨-, rfl⟩ := hg
    exact syOk_on1 2 (.rx 0.3) ((0 : ℕ) : ℤ) rfl L hL
  · simp only [List.mem_cons, List.not_mem_nil, or_false, forall_eq_or_imp, forall_eq, Elem.angles]
    constructor <;> rw [abs_of_pos (by norm_num)] <;> norm_num <;> linarith
  · norm_num [weights, Elem.weight]

end

end Blueqat
