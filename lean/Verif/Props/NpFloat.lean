import Verif.FloatIeee
import Verif.DoubleLemmas
import Verif.Spec.Run
import Verif.Props.Numpy

/-!
# C89, C90: the numpy simulator in floating point

`flRunArgs F` is `NumPyBackend.run` with the arithmetic `F`. `Accurate F n ε ν` (Verif/Spec/Rounding.lean) says that the
operations of `F` have relative errors of at most `ε`, and `np.linalg.norm(v) ** 2` of at most `ν`.
-/

set_option linter.unusedSimpArgs false
set_option linter.unusedVariables false

namespace Blueqat

open Spec

noncomputable section

/-! ## What the hypotheses mean -/

/-- Arithmetic which rounds with a relative error of `u` after every operation on floats (for IEEE doubles without
overflow and underflow `u = 2^-53`) is accurate to `4u`. -/
theorem C89_doubles (fl cos sin : ℝ → ℝ) (u : ℝ) (n : ℕ) (hu : 0 ≤ u) (hu4 : u ≤ 1 / 4) (hfl : RoundsTo fl u)
    (hcos : ∀ x, |cos x - Real.cos x| ≤ u) (hsin : ∀ x, |sin x - Real.sin x| ≤ u) :
    Accurate (FloatOps.rounded fl cos sin) n (4 * u) ((1 + u) ^ (2 * 2 ^ n + 7) - 1) := by
  have h4 : u ≤ 4 * u := by linarith
  have up : ∀ {x y : ℝ}, |x - y| ≤ u * |y| → |x - y| ≤ 4 * u * |y| := fun h =>
    h.trans (mul_le_mul_of_nonneg_right h4 (abs_nonneg _))
  have hc : 0 ≤ 4 * u := by linarith
  have c2 : 2 * u + u ^ 2 ≤ 4 * u := by nlinarith
  constructor
  · exact fun a b => norm_comp_le (up (hfl _)) (up (hfl _)) hc
  · exact fun a b => norm_comp_le (up (hfl _)) (up (hfl _)) hc
  · exact rounded_mul_near hfl hu hu4 cos sin
  · intro z x hx
    refine norm_comp_le ?_ ?_ hc
    · rw [Complex.div_ofReal_re]
      have := (fl_scaled hfl hu z.re (1 / x)).trans (mul_le_mul_of_nonneg_right c2 (abs_nonneg _))
      rw [mul_one_div] at this
      exact this
    · rw [Complex.div_ofReal_im]
      have := (fl_scaled hfl hu z.im (1 / x)).trans (mul_le_mul_of_nonneg_right c2 (abs_nonneg _))
      rw [mul_one_div] at this
      exact this
  · exact fun x y => up (hfl _)
  · exact fun x y => up (hfl _)
  · exact fun x y => up (hfl _)
  · exact fun x => (hcos x).trans h4
  · exact fun x => (hsin x).trans h4
  · exact sqrt2Inv_near hu hu4 hfl
  · intro x hx
    have := up (hfl √x)
    rw [abs_of_nonneg (Real.sqrt_nonneg x)] at this
    exact this
  · intro v hv
    exact ((rounded_normPow2 hu hfl cos sin v).mono hu (by omega)).2
  · exact fun x => up (hfl x)

/-- A rounding that always makes numbers larger by one part in a million, and exact `cos` and `sin`. -/
example : RoundsTo (fun x => x * (1 + 1 / 10 ^ 6)) (1 / 10 ^ 6) ∧ (0 : ℝ) ≤ 1 / 10 ^ 6 ∧ (1 / 10 ^ 6 : ℝ) ≤ 1 / 4 ∧
    (fun x : ℝ => x * (1 + 1 / 10 ^ 6)) 1 ≠ 1 := by
  refine ⟨fun x => ?_, by norm_num, by norm_num, by norm_num⟩
  rw [show x * (1 + 1 / 10 ^ 6) - x = 1 / 10 ^ 6 * x by ring, abs_mul, abs_of_pos (by norm_num : (0 : ℝ) < 1 / 10 ^ 6)]

/-- Rounding to 53 binary digits, to nearest, ties to even, also of the values of `cos` and `sin`. -/
example (n : ℕ) : Accurate (FloatOps.rounded roundDouble (fun x => roundDouble (Real.cos x)) (fun x => roundDouble (Real.sin x))) n
    (4 * (1 / 2 ^ 53)) ((1 + 1 / 2 ^ 53) ^ (2 * 2 ^ n + 7) - 1) :=
  C89_doubles _ _ _ _ n (by norm_num) (by norm_num) roundDouble_rounds (roundDouble_bounded _ Real.abs_cos_le_one)
    (roundDouble_bounded _ Real.abs_sin_le_one)

/-- In exact arithmetic, the run is that of the model the other properties are about. -/
theorem C89_exact (n : ℕ) (gates : List Gate) (be : NpBackend) (shots : Option ℤ) (returns : Option String) (rnd : ℕ → ℝ) :
    flRunArgs .exact n gates be shots returns rnd = npRunArgs n gates be ⟨shots, returns, false, rnd⟩ := by
  have hG : ∀ gs be ctx, flGates .exact n gs be ctx = npGates n gs be ctx := by
    intro gs
    induction gs with
    | nil => intro be ctx; rfl
    | cons g gs ih =>
      intro be ctx
      simp only [flGates, npGates, npRunGate, flAction_exact, ih]
      rfl
  have hS : ∀ k be ctx res, flShots .exact n gates k be ctx res = npShots n gates k be ctx res := by
    intro k
    induction k with
    | zero => intro be ctx res; rfl
    | succ k ih =>
      intro be ctx res
      simp only [flShots, npShots, hG, ih]
      cases npPrepare n be.cache ctx with
      | error e => rfl
      | ok c =>
        simp only
        rcases npGates n (gates.drop (be.cacheIdx + 1).toNat) be c with ⟨b, e | c'⟩ <;> rfl
  simp only [flRunArgs, npRunArgs, flRun, npRun, hS, Bool.false_eq_true, if_false]
  cases npParse shots returns with
  | error e => rfl
  | ok p =>
    simp only
    rcases npShots n gates p.1.toNat (be.clearIfInvalid n) (npNewCtx n rnd) [] with ⟨b, e | ⟨c, r⟩⟩ <;> rfl

/-! ## Circuits without measurement -/

theorem accurate_nonneg {F : FloatOps} {n : ℕ} {ε ν : ℝ} (hF : Accurate F n ε ν) : 0 ≤ ε ∧ 0 ≤ ν := by
  refine ⟨(abs_nonneg _).trans (hF.cos 0), ?_⟩
  have := (abs_nonneg _).trans (hF.normPow2 [1] (by simpa using Nat.one_le_two_pow))
  simpa using this

theorem small_of {F : FloatOps} {n : ℕ} {ε ν Θ : ℝ} (hF : Accurate F n ε ν) (hΘ : Real.pi / 2 ≤ Θ)
    (hκ : passErr ε Θ ≤ 1 / 2) : Small ε Θ (ε + Θ * ε) := by
  have hpi := Real.pi_pos
  refine ⟨(accurate_nonneg hF).1, by linarith, rfl, ?_⟩
  rw [passErr] at hκ
  nlinarith

theorem getLast_randoms (n : ℕ) (es : List Elem) (j : ℕ) (rnd : ℕ → ℝ) :
    (rnd :: (shotStates phSim n es j rnd).map MState.rnd).getLast? = some (randomsAfter n es j rnd) := by
  induction j generalizing rnd with
  | zero => rfl
  | succ j ih =>
    simp only [shotStates, List.map_cons, randomsAfter]
    rw [List.getLast?_cons_cons]
    exact ih _

theorem flRun_float {F : FloatOps} {n : ℕ} {ε ν Θ : ℝ} (hF : Accurate F n ε ν) (hΘ : Real.pi / 2 ≤ Θ)
    (hκ : passErr ε Θ ≤ 1 / 2) {gates : List Gate} {es : List Elem} (hd : GatesDenote n gates es)
    (hv : ∀ e ∈ es, e.Valid n) (hA : ∀ e ∈ es, ∀ x ∈ e.angles, |x| ≤ Θ) (k : ℕ) {rnd : ℕ → ℝ} (hr : InUnit rnd)
    (hc : ShotsClear ε ν Θ n es (k + 1) rnd) :
    ∃ be ctx res, flRun F n gates (k + 1) NpBackend.new rnd = (be, .ok (ctx, res)) ∧
      FRel n ctx (steps phSim n es (initState (randomsAfter n es k rnd)))
        (errBound ε ν Θ n es (initState (randomsAfter n es k rnd)) 0) ∧
      (0 < n → ∀ key, countOf res key =
        (shotStates phSim n es (k + 1) rnd).countP (fun s => decide (bitString n s.creg = key))) := by
  obtain ⟨hε, hν⟩ := accurate_nonneg hF
  obtain ⟨be, ctx, res, h1, -, h2, h3⟩ := flShots_float hF hν (small_of hF hΘ hκ) hΘ hd hv hA (k + 1) NpBackend.new
    (npNewCtx n rnd) [] (by simp [npNewCtx]) (by simp [npNewCtx]) hr hc (cacheNear_new ε Θ n gates)
  refine ⟨be, ctx, res, h1, h2 k _ rfl (getLast_randoms n es k rnd), fun hn key => ?_⟩
  rw [h3 hn key]
  simp [countOf, npNewCtx]

theorem shotsClear_unitary (ε ν Θ : ℝ) (n : ℕ) (es : List Elem) (hu : ∀ e ∈ es, e.IsUnitary) (k : ℕ) (rnd : ℕ → ℝ) :
    ShotsClear ε ν Θ n es k rnd := by
  induction k generalizing rnd with
  | zero => trivial
  | succ k ih => exact ⟨allClear_unitary ε ν Θ n es hu _ _, ih _⟩

/-- C89. The state vector of a run without measurements, in arithmetic accurate to `ε`, differs from the documented
state (up to a global phase if there are `cu1` gates) by at most `(1 + κ)^N - 1` in the Euclidean norm, where `κ` is
`44 (1 + Θ) ε`, `Θ` bounds the angles and `N` is the number of passes over the state. -/
theorem C89_state (F : FloatOps) (n : ℕ) (ε ν Θ : ℝ) (hF : Accurate F n ε ν) (hΘ : Real.pi / 2 ≤ Θ)
    (hκ : passErr ε Θ ≤ 1 / 2) (gates : List Gate) (es : List Elem) (hd : GatesDenote n gates es)
    (hv : ∀ e ∈ es, e.Valid n) (hu : ∀ e ∈ es, e.IsUnitary) (hA : ∀ e ∈ es, ∀ x ∈ e.angles, |x| ≤ Θ)
    (rnd : ℕ → ℝ) (hr : InUnit rnd) :
    ∃ z : ℂ, ‖z‖ = 1 ∧ ((∀ e ∈ es, ¬ e.IsCu1) → z = 1) ∧ ∃ be φ,
      flRunArgs F n gates NpBackend.new none none rnd = (be, .ok (.statevector (amplitudes n φ), rnd)) ∧
      √(∑ i ∈ Finset.range (2 ^ n), ‖φ i - z * unitaries phDoc es (fun j => if j = 0 then 1 else 0) i‖ ^ 2) ≤
        (1 + passErr ε Θ) ^ passes es - 1 := by
  obtain ⟨z, hz1, hz2, hz3⟩ := unitaries_phSim es
  obtain ⟨be, ctx, res, h1, h2, -⟩ := flRun_float hF hΘ hκ hd hv hA 0 hr (shotsClear_unitary ε ν Θ n es hu 1 rnd)
  rw [errBound_unitary ε ν Θ n es hu, steps_unitary phSim n es hu] at h2
  obtain ⟨φ, hφ, hgap⟩ := h2.qubits
  refine ⟨z, hz1, hz2, be, φ, ?_, ?_⟩
  · have hparse : npParse none none = .ok (1, "statevector") := by decide
    simp only [flRunArgs, hparse]
    rw [show (1 : ℤ).toNat = 0 + 1 from rfl, h1]
    simp only [npReturn, if_true, hφ, h2.rnd]
    rfl
  · simp only [hz3, initState, randomsAfter] at hgap
    rw [add_zero, mul_one] at hgap
    exact hgap

/-- The circuit `Circuit(2).rx(0.3)[0].cu1(0.7)[0, 1]` in arithmetic that rounds every result with a relative error of
`2^-53`. -/
example : (∀ fl, RoundsTo fl (1 / 2 ^ 53) → Accurate (FloatOps.rounded fl Real.cos Real.sin) 2 (4 * (1 / 2 ^ 53))
      ((1 + 1 / 2 ^ 53) ^ (2 * 2 ^ 2 + 7) - 1)) ∧ Real.pi / 2 ≤ 2 ∧ passErr (4 * (1 / 2 ^ 53)) 2 ≤ 1 / 2 ∧
    GatesDenote 2 [on1 (.rx 0.3) ((0 : ℕ) : ℤ), on2 (.cu1 0.7) ((0 : ℕ) : ℤ) ((1 : ℕ) : ℤ)] [.one (.rx 0.3) 0, .two (.cu1 0.7) 0 1] ∧
    (∀ e ∈ ([.one (.rx 0.3) 0, .two (.cu1 0.7) 0 1] : List Elem), e.Valid 2 ∧ e.IsUnitary) ∧
    (∀ e ∈ ([.one (.rx 0.3) 0, .two (.cu1 0.7) 0 1] : List Elem), ∀ x ∈ e.angles, |x| ≤ 2) ∧
    passes [.one (.rx 0.3) 0, .two (.cu1 0.7) 0 1] = 6 ∧
    (1 + passErr (4 * (1 / 2 ^ 53)) 2) ^ passes [.one (.rx 0.3) 0, .two (.cu1 0.7) 0 1] - 1 ≤ 1 / 10 ^ 12 := by
  refine ⟨fun fl hfl => C89_doubles fl _ _ _ 2 (by norm_num) (by norm_num) hfl (by simp) (by simp), ?_, ?_,
    on1_denote _ 0 (on2_denote _ (by norm_num) rfl), ?_, ?_, rfl, ?_⟩
  · have := Real.pi_le_four; linarith
  · norm_num [passErr]
  · simp [Elem.Valid, Elem.IsUnitary]
  · simp only [List.mem_cons, List.not_mem_nil, or_false, forall_eq_or_imp, forall_eq, Elem.angles]
    constructor <;> rw [abs_of_pos (by norm_num)] <;> norm_num
  · norm_num [passErr, passes, Elem.passes]

theorem passes_le (es : List Elem) : passes es ≤ 7 * es.length := by
  induction es with
  | nil => simp [passes]
  | cons e es ih =>
    have h : e.passes ≤ 7 := by
      cases e with
      | one k t => cases k <;> simp [Elem.passes]
      | two k c t => cases k <;> simp [Elem.passes]
      | three k a b c => cases k <;> simp [Elem.passes]
      | meas t => simp [Elem.passes]
      | reset t => simp [Elem.passes]
    have e1 : passes (e :: es) = e.passes + passes es := by simp [passes]
    rw [e1, List.length_cons]; omega

/-- C89. The error grows in proportion to the number of operations: it is at most `14 κ` for each, as long as that is
small. -/
theorem C89_linear (κ : ℝ) (hκ : 0 ≤ κ) (es : List Elem) (h : 7 * es.length * κ ≤ 1) :
    (1 + κ) ^ passes es - 1 ≤ 14 * es.length * κ := by
  have h0 : (passes es : ℝ) * κ ≤ 7 * es.length * κ := by
    refine mul_le_mul_of_nonneg_right ?_ hκ
    exact_mod_cast passes_le es
  have h1 : (1 + κ) ^ passes es ≤ Real.exp (passes es * κ) := by
    rw [Real.exp_nat_mul]
    exact pow_le_pow_left₀ (by linarith) (by linarith [Real.add_one_le_exp κ]) _
  have hn : 0 ≤ (passes es : ℝ) * κ := by positivity
  have h2 := Real.abs_exp_sub_one_le (x := passes es * κ) (by rw [abs_of_nonneg hn]; linarith)
  rw [abs_of_nonneg hn] at h2
  have := (le_abs_self _).trans h2
  linarith

theorem restrict_gap (n : ℕ) (S : Finset ℕ) (hS : S ⊆ Finset.range (2 ^ n)) (φ : Vec) :
    normSqN n (fun i => if i ∈ S then φ i else 0) = ∑ i ∈ S, ‖φ i‖ ^ 2 := by
  rw [normSqN, ← Finset.sum_subset hS]
  · exact Finset.sum_congr rfl fun i hi => by rw [if_pos hi]
  · intro i _ hi; simp [hi]

/-- What two states differ by bounds the difference of the probabilities of every set of basis states. -/
theorem probabilities_near (n : ℕ) (φ ψ : Vec) (B : ℝ) (hψ : normSqN n ψ = 1)
    (h : √(∑ i ∈ Finset.range (2 ^ n), ‖φ i - ψ i‖ ^ 2) ≤ B) (S : Finset ℕ) (hS : S ⊆ Finset.range (2 ^ n)) :
    |∑ i ∈ S, ‖φ i‖ ^ 2 - ∑ i ∈ S, ‖ψ i‖ ^ 2| ≤ 2 * B + B ^ 2 := by
  have hg : gap n (fun i => if i ∈ S then φ i else 0) (fun i => if i ∈ S then ψ i else 0) ≤ B := by
    refine le_trans ?_ h
    rw [gap]
    refine Real.sqrt_le_sqrt ?_
    rw [normSqN]
    refine Finset.sum_le_sum fun i _ => ?_
    by_cases hi : i ∈ S <;> simp [hi]
  have h2 := abs_le.1 ((norm_gap n _ _).trans hg)
  rw [restrict_gap n S hS, restrict_gap n S hS] at h2
  have p1 : 0 ≤ ∑ i ∈ S, ‖φ i‖ ^ 2 := Finset.sum_nonneg fun i _ => by positivity
  have p2 : 0 ≤ ∑ i ∈ S, ‖ψ i‖ ^ 2 := Finset.sum_nonneg fun i _ => by positivity
  have p3 : ∑ i ∈ S, ‖ψ i‖ ^ 2 ≤ 1 := by
    rw [← hψ, normSqN]
    exact Finset.sum_le_sum_of_subset_of_nonneg hS fun i _ _ => by positivity
  have e1 := Real.mul_self_sqrt p1
  have e2 := Real.mul_self_sqrt p2
  have n1 := Real.sqrt_nonneg (∑ i ∈ S, ‖φ i‖ ^ 2)
  have n2 := Real.sqrt_nonneg (∑ i ∈ S, ‖ψ i‖ ^ 2)
  have l2 : √(∑ i ∈ S, ‖ψ i‖ ^ 2) ≤ 1 := Real.sqrt_le_one.2 p3
  have hB : 0 ≤ B := (Real.sqrt_nonneg _).trans h
  generalize √(∑ i ∈ S, ‖φ i‖ ^ 2) = a at *
  generalize √(∑ i ∈ S, ‖ψ i‖ ^ 2) = c at *
  rw [← e1, ← e2]
  refine abs_le.2 ⟨?_, ?_⟩
  · have : c ≤ a + B := by linarith [h2.1]
    nlinarith
  · have : a ≤ c + B := by linarith [h2.2]
    nlinarith

/-- C89. For every set of basis states, the probability computed from the state vector of the run differs from the
documented probability by at most `(1 + κ)^(2N) - 1`. For all basis states together this bounds the loss of norm. -/
theorem C89_probabilities (F : FloatOps) (n : ℕ) (ε ν Θ : ℝ) (hF : Accurate F n ε ν) (hΘ : Real.pi / 2 ≤ Θ)
    (hκ : passErr ε Θ ≤ 1 / 2) (gates : List Gate) (es : List Elem) (hd : GatesDenote n gates es)
    (hv : ∀ e ∈ es, e.Valid n) (hu : ∀ e ∈ es, e.IsUnitary) (hA : ∀ e ∈ es, ∀ x ∈ e.angles, |x| ≤ Θ)
    (rnd : ℕ → ℝ) (hr : InUnit rnd) :
    ∃ be φ, flRunArgs F n gates NpBackend.new none none rnd = (be, .ok (.statevector (amplitudes n φ), rnd)) ∧
      (∀ S ⊆ Finset.range (2 ^ n),
        |∑ i ∈ S, ‖φ i‖ ^ 2 - ∑ i ∈ S, ‖unitaries phDoc es (fun j => if j = 0 then 1 else 0) i‖ ^ 2| ≤
          (1 + passErr ε Θ) ^ (2 * passes es) - 1) ∧
      |∑ i ∈ Finset.range (2 ^ n), ‖φ i‖ ^ 2 - 1| ≤ (1 + passErr ε Θ) ^ (2 * passes es) - 1 := by
  obtain ⟨z, hz1, -, be, φ, h1, h2⟩ := C89_state F n ε ν Θ hF hΘ hκ gates es hd hv hu hA rnd hr
  have hz : ∀ i, ‖z * unitaries phDoc es (fun j => if j = 0 then 1 else 0) i‖ =
      ‖unitaries phDoc es (fun j => if j = 0 then 1 else 0) i‖ := fun i => by rw [norm_mul, hz1, one_mul]
  have hone : normSqN n (unitaries phDoc es (fun j => if j = 0 then 1 else 0)) = 1 := by
    have := (isom_unitaries (ph := phDoc) (fun _ => by simp [phDoc]) es hv).norm zeroVec
    exact this.trans (normSqN_zero n)
  have hone' : normSqN n (fun i => z * unitaries phDoc es (fun j => if j = 0 then 1 else 0) i) = 1 := by
    simp only [normSqN, hz] at hone ⊢
    exact hone
  have key : ∀ S ⊆ Finset.range (2 ^ n),
      |∑ i ∈ S, ‖φ i‖ ^ 2 - ∑ i ∈ S, ‖unitaries phDoc es (fun j => if j = 0 then 1 else 0) i‖ ^ 2| ≤
        (1 + passErr ε Θ) ^ (2 * passes es) - 1 := by
    intro S hS
    have := probabilities_near n φ _ _ hone' h2 S hS
    simp only [hz] at this
    refine this.trans (le_of_eq ?_)
    have : (1 + passErr ε Θ) ^ (2 * passes es) = ((1 + passErr ε Θ) ^ passes es) ^ 2 := by rw [mul_comm 2, pow_mul]
    rw [this]; ring
  refine ⟨be, φ, h1, key, ?_⟩
  have := key _ (Finset.Subset.refl _)
  simp only [normSqN] at hone
  rwa [hone] at this

/-! ## Measurement and reset -/

/-- C90. If in every shot no random number is within the rounding error of the probability it is compared with, and the
measured results have probabilities above four times that error, then the counts in floating point are those of the
exact machine, and the state vector differs from the exact one after the last shot by at most `errBound`. -/
theorem C90_counts (F : FloatOps) (n : ℕ) (hn : 0 < n) (ε ν Θ : ℝ) (hF : Accurate F n ε ν) (hΘ : Real.pi / 2 ≤ Θ)
    (hκ : passErr ε Θ ≤ 1 / 2) (gates : List Gate) (es : List Elem) (hd : GatesDenote n gates es)
    (hv : ∀ e ∈ es, e.Valid n) (hA : ∀ e ∈ es, ∀ x ∈ e.angles, |x| ≤ Θ) (k : ℕ) (rnd : ℕ → ℝ) (hr : InUnit rnd)
    (hc : ShotsClear ε ν Θ n es (k + 1) rnd) :
    ∃ be φ c, flRunArgs F n gates NpBackend.new (some (k + 1 : ℕ)) (some "statevector_and_shots") rnd =
        (be, .ok (.both (amplitudes n φ) c, randomsAfter n es (k + 1) rnd)) ∧
      (∀ key, countOf c key = (shotStates phSim n es (k + 1) rnd).countP (fun s => decide (bitString n s.creg = key))) ∧
      √(∑ i ∈ Finset.range (2 ^ n),
          ‖φ i - (steps phSim n es (initState (randomsAfter n es k rnd))).psi i‖ ^ 2) ≤
        errBound ε ν Θ n es (initState (randomsAfter n es k rnd)) 0 := by
  obtain ⟨be, ctx, res, h1, h2, h3⟩ := flRun_float hF hΘ hκ hd hv hA k hr hc
  obtain ⟨φ, hφ, hgap⟩ := h2.qubits
  refine ⟨be, φ, res, ?_, h3 hn, hgap⟩
  have hparse : npParse (some ((k + 1 : ℕ) : ℤ)) (some "statevector_and_shots") =
      .ok (((k + 1 : ℕ) : ℤ), "statevector_and_shots") := by
    have : "statevector_and_shots" ∈ npReturnTypes := by decide
    simp only [npParse, if_pos this]
  have hlast : ∀ (j : ℕ) (r : ℕ → ℝ), randomsAfter n es (j + 1) r =
      (steps phSim n es (initState (randomsAfter n es j r))).rnd := by
    intro j
    induction j with
    | zero => intro r; rfl
    | succ j ih => intro r; exact ih _
  simp only [flRunArgs, hparse]
  rw [Int.toNat_natCast, h1]
  simp only [npReturn, show ("statevector_and_shots" = "statevector") = False by decide,
    show ("statevector_and_shots" = "shots") = False by decide, if_false, if_true, hφ, h2.rnd, hlast]
  rfl

/-- C90. Under the same hypotheses the counts are those of the run in exact arithmetic. -/
theorem C90_same_counts (F : FloatOps) (n : ℕ) (hn : 0 < n) (ε ν Θ : ℝ) (hF : Accurate F n ε ν) (hΘ : Real.pi / 2 ≤ Θ)
    (hκ : passErr ε Θ ≤ 1 / 2) (gates : List Gate) (es : List Elem) (hd : GatesDenote n gates es)
    (hv : ∀ e ∈ es, e.Valid n) (hA : ∀ e ∈ es, ∀ x ∈ e.angles, |x| ≤ Θ) (k : ℕ) (rnd : ℕ → ℝ) (hr : InUnit rnd)
    (hc : ShotsClear ε ν Θ n es (k + 1) rnd) :
    ∃ c c' rest rest', (flRunArgs F n gates NpBackend.new (some (k + 1 : ℕ)) none rnd).2 = .ok (.shots c, rest) ∧
      freshRun n gates ⟨some (k + 1 : ℕ), none, false, rnd⟩ = .ok (.shots c', rest') ∧
      ∀ key, countOf c key = countOf c' key := by
  obtain ⟨be, ctx, res, h1, h2, h3⟩ := flRun_float hF hΘ hκ hd hv hA k hr hc
  obtain ⟨c', rest', k1, k2⟩ := C16_counts_exact n hn gates es hd hv (k + 1) false rnd hr
  refine ⟨res, c', ctx.rnd, rest', ?_, k1, fun key => by rw [h3 hn key, k2 key]⟩
  have hparse : npParse (some ((k + 1 : ℕ) : ℤ)) none = .ok (((k + 1 : ℕ) : ℤ), "shots") := by
    have : "shots" ∈ npReturnTypes := by decide
    simp only [npParse, if_pos this]
  simp only [flRunArgs, hparse]
  rw [Int.toNat_natCast, h1]
  simp only [npReturn, show ("shots" = "statevector") = False by decide, if_false, if_true]

/-- Two shots of `Circuit(1).h[0].m[0]` with the random numbers `0.25`, in double precision. -/
example : Real.pi / 2 ≤ 2 ∧ passErr (4 * (1 / 2 ^ 53)) 2 ≤ 1 / 2 ∧
    GatesDenote 1 [on1 .h ((0 : ℕ) : ℤ), .measure (.one (.int 0))] [.one .h 0, .meas 0] ∧
    (∀ e ∈ ([.one .h 0, .meas 0] : List Elem), e.Valid 1) ∧
    (∀ e ∈ ([.one .h 0, .meas 0] : List Elem), ∀ x ∈ e.angles, |x| ≤ 2) ∧ InUnit (fun _ => 1 / 4) ∧
    ShotsClear (4 * (1 / 2 ^ 53)) ((1 + 1 / 2 ^ 53) ^ (2 * 2 ^ 1 + 7) - 1) 2 1 [.one .h 0, .meas 0] 2 (fun _ => 1 / 4) ∧
    errBound (4 * (1 / 2 ^ 53)) ((1 + 1 / 2 ^ 53) ^ (2 * 2 ^ 1 + 7) - 1) 2 1 [.one .h 0, .meas 0]
      (initState fun _ => 1 / 4) 0 ≤ 1 / 10 ^ 11 := by
  have hp : prob 1 0 false (Elem.unitary phSim (.one .h 0) (fun j => if j = 0 then 1 else 0)) = 1 / 2 := by
    rw [show Elem.unitary phSim (.one .h 0) = app mH 0 from rfl]
    have : (Finset.range (2 ^ 1)).filter (fun i => i.testBit 0 = false) = {0} := by decide
    rw [prob, this, Finset.sum_singleton]
    simp [app, mH, flipBit]
  have hA : AllClear (4 * (1 / 2 ^ 53)) ((1 + 1 / 2 ^ 53) ^ (2 * 2 ^ 1 + 7) - 1) 2 1 [.one .h 0, .meas 0]
      (initState fun _ => 1 / 4) 0 := by
    refine ⟨trivial, ⟨?_, ?_⟩, trivial⟩
    · simp only [Elem.step, initState, hp]
      norm_num [probErr, Elem.errStep, passErr, Elem.passes, abs_of_neg]
    · simp only [resultProb, Elem.step, initState, hp]
      norm_num [probErr, Elem.errStep, passErr, Elem.passes]
  refine ⟨by have := Real.pi_le_four; linarith, by norm_num [passErr], ?_, ?_, ?_, ?_, ⟨hA, ?_, trivial⟩, ?_⟩
  · refine on1_denote _ 0 ⟨[.meas 0], [], ⟨[0], ?_, rfl⟩, rfl, rfl⟩
    rw [← slicing_eq_iff]; rfl
  · simp [Elem.Valid]
  · simp [Elem.angles]
  · intro k; norm_num
  · have : (steps phSim 1 [.one .h 0, .meas 0] (initState fun _ => 1 / 4)).rnd = fun _ => 1 / 4 := by
      simp only [steps, List.foldl_cons, List.foldl_nil, Elem.step, initState, hp]
      rw [if_pos (by norm_num)]
    rw [this]; exact hA
  · simp only [errBound, Elem.errStep, resultProb, Elem.step, initState, hp]
    norm_num [probErr, passErr, Elem.passes]

/-! ## The condition on the random numbers is needed -/

/-- Exact arithmetic, except that `np.linalg.norm(v) ** 2` comes out too small by the factor `1 - δ`. -/
def dampedOps (δ : ℝ) : FloatOps := { FloatOps.exact with normPow2 := fun v => (1 - δ) * normPow2 v }

theorem damped_accurate (n : ℕ) (δ : ℝ) (h0 : 0 ≤ δ) : Accurate (dampedOps δ) n 0 δ where
  add := by simp [dampedOps, FloatOps.exact]
  sub := by simp [dampedOps, FloatOps.exact]
  mul := by simp [dampedOps, FloatOps.exact]
  div := by simp [dampedOps, FloatOps.exact]
  radd := by simp [dampedOps, FloatOps.exact]
  rsub := by simp [dampedOps, FloatOps.exact]
  rmul := by simp [dampedOps, FloatOps.exact]
  cos := by simp [dampedOps, FloatOps.exact]
  sin := by simp [dampedOps, FloatOps.exact]
  sqrt2Inv := by simp [dampedOps, FloatOps.exact]
  sqrt := by simp [dampedOps, FloatOps.exact]
  par := by simp [dampedOps, FloatOps.exact]
  normPow2 v _ := by
    have hs : 0 ≤ (v.map fun z => ‖z‖ ^ 2).sum := List.sum_nonneg (by simp)
    have : (dampedOps δ).normPow2 v = (1 - δ) * (v.map fun z => ‖z‖ ^ 2).sum := by
      simp only [dampedOps, Blueqat.normPow2, Real.sq_sqrt hs]
    rw [this, show (1 - δ) * (v.map fun z => ‖z‖ ^ 2).sum - (v.map fun z => ‖z‖ ^ 2).sum =
      -(δ * (v.map fun z => ‖z‖ ^ 2).sum) by ring, abs_neg, abs_of_nonneg (by positivity)]

theorem damped_run (δ : ℝ) (rnd : ℕ → ℝ) : ∃ rest,
    (flRunArgs (dampedOps δ) 1 [.measure (.one (.int 0))] NpBackend.new (some 1) none rnd).2 =
      .ok (.shots [(if rnd 0 < 1 - δ then "0" else "1", 1)], rest) := by
  have hp : npParse (some 1) none = .ok (1, "shots") := by simp [npParse, npReturnTypes]
  have hs : slicing (.one (.int 0)) ((1 : ℕ) : ℤ) = ⟨[0], none⟩ := rfl
  have hsel : sel [1, 0] (maskEq 1 1) = [1] := by
    simp [maskEq, sel, List.range_succ]
  have hn : (dampedOps δ).normPow2 [1] = 1 - δ := by simp [dampedOps, normPow2]
  obtain ⟨q, hb⟩ : ∃ q, flBodyMeasure (dampedOps δ) 1 0 ⟨[1, 0], [0, 0], [0], true, rnd⟩ =
      .ok ⟨q, [0, 0], [if rnd 0 < 1 - δ then 0 else 1], true, fun k => rnd (k + 1)⟩ := by
    simp only [flBodyMeasure, shl1, bind, Except.bind, Int.toNat_zero, pow_zero]
    by_cases h : rnd 0 < 1 - δ
    · simp [h, setCreg, pure, Except.pure, hsel, hn]
    · simp [h, setCreg, pure, Except.pure, hsel, hn]
  have hm : flGateMeasure (dampedOps δ) 1 (.one (.int 0)) ⟨[1, 0], [0, 0], [0], true, rnd⟩ =
      .ok ⟨q, [0, 0], [if rnd 0 < 1 - δ then 0 else 1], false, fun k => rnd (k + 1)⟩ := by
    simp only [flGateMeasure, hs, forGen, List.foldlM_cons, List.foldlM_nil, hb, bind, Except.bind, pure, Except.pure]
  have hg : runGate (flAction (dampedOps δ) 1) 1 recursionLimit (.measure (.one (.int 0))) ⟨[1, 0], [0, 0], [0], true, rnd⟩ =
      .ok ⟨q, [0, 0], [if rnd 0 < 1 - δ then 0 else 1], false, fun k => rnd (k + 1)⟩ := by
    rw [← hm]; rfl
  have hprep : npPrepare 1 none (npNewCtx 1 rnd) = .ok ⟨[1, 0], [0, 0], [0], true, rnd⟩ := rfl
  refine ⟨fun k => rnd (k + 1), ?_⟩
  simp only [flRunArgs, hp, flRun]
  have hbe : NpBackend.new.clearIfInvalid 1 = NpBackend.new := rfl
  rw [hbe, show (1 : ℤ).toNat = 0 + 1 from rfl, flShots]
  simp only [show NpBackend.new.cache = none from rfl, hprep]
  rw [show ([.measure (.one (.int 0))] : List Gate).drop (NpBackend.new.cacheIdx + 1).toNat = [.measure (.one (.int 0))]
    from rfl, flGates]
  simp only [hg, flGates, flShots, npReturn]
  by_cases h : rnd 0 < 1 - δ
  · simp [h, Counter.add, cregsKey]; rfl
  · simp [h, Counter.add, cregsKey]; rfl

/-- C90: the condition on the random numbers cannot be dropped. However accurate the arithmetic, as long as sums of
squares are not exact: there are an arithmetic of that accuracy and a random number with which one shot of
`Circuit(1).m[0]` gives `1`, a result of probability 0. -/
theorem C90_unclear (ν : ℝ) (h0 : 0 < ν) (h1 : ν < 1) : ∃ (F : FloatOps) (rnd : ℕ → ℝ),
    Accurate F 1 0 ν ∧ InUnit rnd ∧
    (∃ rest, (flRunArgs F 1 [.measure (.one (.int 0))] NpBackend.new (some 1) none rnd).2 = .ok (.shots [("1", 1)], rest)) ∧
    (∃ rest, freshRun 1 [.measure (.one (.int 0))] ⟨some 1, none, false, rnd⟩ = .ok (.shots [("0", 1)], rest)) ∧
    prob 1 0 true (initState rnd).psi = 0 := by
  refine ⟨dampedOps ν, fun _ => 1 - ν, damped_accurate 1 ν h0.le, fun k => ⟨by linarith, by linarith⟩, ?_, ?_, ?_⟩
  · obtain ⟨rest, h⟩ := damped_run ν (fun _ => 1 - ν)
    exact ⟨rest, by simpa using h⟩
  · have he : dampedOps 0 = FloatOps.exact := by simp [dampedOps, FloatOps.exact]
    obtain ⟨rest, h⟩ := damped_run 0 (fun _ => 1 - ν)
    rw [he, C89_exact, if_pos (by linarith)] at h
    exact ⟨rest, h⟩
  · have : (Finset.range (2 ^ 1)).filter (fun i => i.testBit 0 = true) = {1} := by decide
    rw [prob, this, Finset.sum_singleton]
    simp [initState]

end

end Blueqat
