import Verif.FloatPhaseLemmas
import Verif.Props.NbFloat
import Verif.Props.Utils

/-!
# C95: `ignore_global` in floating point

`flRunPhase P F` is `NumPyBackend.run` and `flNbRunPhase P K` is `NumbaBackend.run`, with all their options.
`PhaseAccurate P δ` (Verif/Spec/Phase.lean) says that the operations which remove the phase have relative errors of at
most `δ`.
-/

set_option linter.unusedSimpArgs false
set_option linter.unusedVariables false

namespace Blueqat

open Spec

noncomputable section

/-! ## What the hypotheses mean -/

/-- Arithmetic which rounds with a relative error of `u` after every operation on floats, with complex quotients by
Smith's method, removes phases with operations accurate to `(1 + u)^11 - 1`. -/
theorem C95_doubles (fl : ℝ → ℝ) (hypot : ℝ → ℝ → ℝ) (u : ℝ) (hu : 0 ≤ u) (hu8 : u ≤ 1 / 8) (hfl : RoundsTo fl u)
    (hh : ∀ x y, |hypot x y - √(x ^ 2 + y ^ 2)| ≤ u * √(x ^ 2 + y ^ 2)) :
    PhaseAccurate (PhaseOps.rounded fl hypot) ((1 + u) ^ 11 - 1) := by
  have hb : 11 * u ≤ (1 + u) ^ 11 - 1 := by
    have := one_add_mul_le_pow (show (-2 : ℝ) ≤ u by linarith) 11
    push_cast at this
    linarith
  have up : ∀ {x y : ℝ}, 0 ≤ y → x ≤ u * y → x ≤ ((1 + u) ^ 11 - 1) * y := fun hy h =>
    h.trans (mul_le_mul_of_nonneg_right (by linarith) hy)
  refine ⟨fun z => ?_, fun x z hz => smith_near hu hu8 hfl x z hz, fun a b => ?_, ?_⟩
  · have e : √(z.re ^ 2 + z.im ^ 2) = ‖z‖ := by rw [norm_sq_parts, Real.sqrt_sq (norm_nonneg z)]
    have := hh z.re z.im
    rw [e] at this
    exact up (norm_nonneg z) this
  · exact (rounded_mul_near hfl hu (by linarith) id id a b).trans
      (mul_le_mul_of_nonneg_right (by linarith) (norm_nonneg _))
  · have := hfl 0.0000001
    rw [show (0.0000001 : ℝ) = 1 / 10 ^ 7 by norm_num, abs_of_pos (by norm_num : (0 : ℝ) < 1 / 10 ^ 7)] at this
    refine up (by norm_num) ?_
    simp only [PhaseOps.rounded]
    rw [show (0.0000001 : ℝ) = 1 / 10 ^ 7 by norm_num]
    exact this

/-- Rounding that makes numbers larger by one part in a million; `hypot` as well. -/
example : RoundsTo (fun x => x * (1 + 1 / 10 ^ 6)) (1 / 10 ^ 6) ∧ (0 : ℝ) ≤ 1 / 10 ^ 6 ∧ (1 / 10 ^ 6 : ℝ) ≤ 1 / 8 ∧
    (∀ x y : ℝ, |√(x ^ 2 + y ^ 2) * (1 + 1 / 10 ^ 6) - √(x ^ 2 + y ^ 2)| ≤ 1 / 10 ^ 6 * √(x ^ 2 + y ^ 2)) ∧
    ((1 + 1 / 10 ^ 6 : ℝ) ^ 11 - 1) ≤ 1 / 10 ^ 4 := by
  refine ⟨fun x => ?_, by norm_num, by norm_num, fun x y => ?_, by norm_num⟩
  · rw [show x * (1 + 1 / 10 ^ 6) - x = 1 / 10 ^ 6 * x by ring, abs_mul, abs_of_pos (by norm_num : (0 : ℝ) < 1 / 10 ^ 6)]
  · rw [show ∀ s : ℝ, s * (1 + 1 / 10 ^ 6) - s = 1 / 10 ^ 6 * s from fun s => by ring, abs_of_nonneg (by positivity)]

/-- Rounding to 53 binary digits, to nearest, ties to even; `hypot` correctly rounded. -/
example : PhaseAccurate (PhaseOps.rounded roundDouble (fun x y => roundDouble (√(x ^ 2 + y ^ 2)))) ((1 + 1 / 2 ^ 53) ^ 11 - 1) :=
  C95_doubles _ _ _ (by norm_num) (by norm_num) roundDouble_rounds (fun x y => by
    have := roundDouble_rounds (√(x ^ 2 + y ^ 2))
    rwa [abs_of_nonneg (Real.sqrt_nonneg _)] at this)

/-- C95: `ignore_global` changes neither the backend nor the counts nor the random numbers used; of the result only the
vector, which is turned. Without it the run is that of C89 and C90. -/
theorem C95_only_vector (P : PhaseOps) (F : FloatOps) (n : ℕ) (gates : List Gate) (be : NpBackend) (shots : Option ℤ)
    (returns : Option String) (rnd : ℕ → ℝ) :
    flRunPhase P F n gates be ⟨shots, returns, false, rnd⟩ = flRunArgs F n gates be shots returns rnd ∧
    (flRunPhase P F n gates be ⟨shots, returns, true, rnd⟩).1 = (flRunArgs F n gates be shots returns rnd).1 ∧
    (flRunPhase P F n gates be ⟨shots, returns, true, rnd⟩).2 =
      (flRunArgs F n gates be shots returns rnd).2.map (fun r => (match r.1 with
        | .statevector q => .statevector (flIgnoreGlobal P q)
        | .shots c => .shots c
        | .both q c => .both (flIgnoreGlobal P q) c
        | .inner q cr c => .inner (flIgnoreGlobal P q) cr c, r.2)) := by
  simp only [flRunPhase, flRunArgs]
  cases hp : npParse shots returns with
  | error e => exact ⟨rfl, rfl, rfl⟩
  | ok x =>
    obtain ⟨k, r⟩ := x
    simp only
    rcases hr : flRun F n gates k.toNat be rnd with ⟨be', res⟩
    cases res with
    | error e => exact ⟨rfl, rfl, rfl⟩
    | ok y =>
      obtain ⟨ctx, c⟩ := y
      refine ⟨by simp, rfl, ?_⟩
      simp only [if_true, Bool.false_eq_true, if_false, npReturn, Except.map]
      by_cases h1 : r = "statevector"
      · simp [h1]
      · by_cases h2 : r = "shots"
        · simp [h1, h2]
        · by_cases h3 : r = "statevector_and_shots" <;> simp [h1, h2, h3]

/-- C95: the same for the numba backend. -/
theorem C95_numba_only_vector (P : PhaseOps) (K : NbFloat) (n : ℕ) (gates : List Gate) (be : NbBackend)
    (shots : Option ℤ) (returns : Option String) (en : Bool) (rnd : ℕ → ℝ) (int : Option ℕ) :
    flNbRunPhase P K n gates be ⟨shots, returns, en, false, rnd, int⟩ = flNbRunArgs K n gates be shots returns en rnd int ∧
    (flNbRunPhase P K n gates be ⟨shots, returns, en, true, rnd, int⟩).1 =
      (flNbRunArgs K n gates be shots returns en rnd int).1 ∧
    (flNbRunPhase P K n gates be ⟨shots, returns, en, true, rnd, int⟩).2 =
      (flNbRunArgs K n gates be shots returns en rnd int).2.map (fun r => (match r.1 with
        | .statevector q => .statevector (flIgnoreGlobal P q)
        | .shots c => .shots c
        | .both q c => .both (flIgnoreGlobal P q) c
        | .inner q cr c => .inner (flIgnoreGlobal P q) cr c, r.2)) := by
  simp only [flNbRunPhase, flNbRunArgs]
  cases hp : nbParse shots returns with
  | error e => exact ⟨rfl, rfl, rfl⟩
  | ok x =>
    obtain ⟨k, r⟩ := x
    simp only
    rcases hr : flNbShots K n gates k.toNat (if en then be.clearIfInvalid n else ⟨none, -1⟩)
      ⟨List.replicate (2 ^ n) 0, [], rnd⟩ en int [] with ⟨be', res⟩
    cases res with
    | error e => exact ⟨rfl, rfl, rfl⟩
    | ok y =>
      obtain ⟨ctx, c⟩ := y
      refine ⟨by simp, rfl, ?_⟩
      simp only [if_true, Bool.false_eq_true, if_false, npReturn, Except.map]
      by_cases h1 : r = "statevector"
      · simp [h1]
      · by_cases h2 : r = "shots"
        · simp [h1, h2]
        · by_cases h3 : r = "statevector_and_shots" <;> simp [h1, h2, h3]

theorem flIgnore_exact (v : Arr) : flIgnoreGlobal .exact v = ignoreGlobalPhase v := rfl

/-- In exact arithmetic, the runs are those of the model the other properties are about. -/
theorem C95_exact (n : ℕ) (gates : List Gate) (be : NpBackend) (a : RunArgs) (nb : NbBackend) (b : NbArgs) :
    flRunPhase .exact .exact n gates be a = npRunArgs n gates be a ∧
    flNbRunPhase .exact .exact n gates nb b = nbRunArgs n gates nb b := by
  constructor
  · obtain ⟨shots, returns, ig, rnd⟩ := a
    obtain ⟨h1, h2, h3⟩ := C95_only_vector .exact .exact n gates be shots returns rnd
    cases ig with
    | false => rw [h1, C89_exact]
    | true =>
      rw [C89_exact] at h2 h3
      refine Prod.ext ?_ ?_
      · rw [h2]
        simp only [npRunArgs]
        cases npParse shots returns with
        | error e => rfl
        | ok p =>
          simp only
          rcases npRun n gates p.1.toNat be rnd with ⟨b, e | ⟨c, r⟩⟩ <;> rfl
      · rw [h3]
        simp only [npRunArgs]
        cases npParse shots returns with
        | error e => rfl
        | ok p =>
          simp only
          rcases npRun n gates p.1.toNat be rnd with ⟨b, e | ⟨c, r⟩⟩
          · rfl
          · simp only [if_true, Bool.false_eq_true, if_false, npReturn, Except.map, flIgnore_exact]
            by_cases h1 : p.2 = "statevector"
            · simp [h1]
            · by_cases h2 : p.2 = "shots"
              · simp [h1, h2]
              · by_cases h3 : p.2 = "statevector_and_shots" <;> simp [h1, h2, h3]
  · obtain ⟨shots, returns, en, ig, rnd, int⟩ := b
    obtain ⟨h1, h2, h3⟩ := C95_numba_only_vector .exact .exact n gates nb shots returns en rnd int
    obtain ⟨k1, k2⟩ := C25_numba_cache_unaffected n gates nb shots returns en rnd int
    cases ig with
    | false => rw [h1, C91_exact]
    | true =>
      rw [C91_exact] at h2 h3
      exact Prod.ext (h2.trans k1.symm) (h3.trans k2.symm)

/-! ## The turned state -/

theorem doc_norm (n : ℕ) (es : List Elem) (hv : ∀ e ∈ es, e.Valid n) :
    normSqN n (unitaries phDoc es (fun j => if j = 0 then 1 else 0)) = 1 :=
  ((isom_unitaries (ph := phDoc) (fun _ => by simp [phDoc]) es hv).norm zeroVec).trans (normSqN_zero n)

theorem phase_norm {n : ℕ} {ψ : Vec} {z : ℂ} (hz : ‖z‖ = 1) (h : normSqN n ψ = 1) : normSqN n (fun i => z * ψ i) = 1 := by
  simp only [normSqN, norm_mul, hz, one_mul] at h ⊢; exact h

theorem state_near_any {P : PhaseOps} {δ : ℝ} (hP : PhaseAccurate P δ) (hδ : δ < 1) {n : ℕ} {φ ψ : Vec} {z : ℂ} {B : ℝ}
    (hz : ‖z‖ = 1) (hψ : normSqN n ψ = 1) (hg : gap n φ (fun i => z * ψ i) ≤ B) :
    ∃ (w : ℂ) (φ' : Vec), ‖w‖ = 1 ∧ flIgnoreGlobal P (amplitudes n φ) = amplitudes n φ' ∧
      distance n φ' (fun i => w * ψ i) ≤ (1 + δ) ^ 3 * (1 + B) - 1 := by
  have h0 := phase_nonneg hP
  have hc : 0 ≤ (1 + δ) ^ 3 - 1 := by have := one_le_pow_u h0 3; linarith
  obtain ⟨w, φ', hw, h1, h2⟩ := flIgnore_near hP hδ n φ
  refine ⟨w * z, φ', by rw [norm_mul, hw, hz, one_mul], h1, ?_⟩
  have h3 : √(normSqN n φ) ≤ 1 + B := by
    have := (abs_le.1 ((norm_gap n φ _).trans hg)).2
    rw [phase_norm hz hψ, Real.sqrt_one] at this
    linarith
  have h4 : gap n (fun i => w * φ i) (fun i => w * z * ψ i) ≤ B := by
    have := gap_mulc n w φ (fun i => z * ψ i)
    simp only [mul_comm _ w, hw, one_mul] at this
    simp only [mul_assoc]
    rw [this]; exact hg
  have h5 := gap_triangle n φ' (fun i => w * φ i) (fun i => w * z * ψ i)
  have h6 := mul_le_mul_of_nonneg_left h3 hc
  have : gap n φ' (fun i => w * z * ψ i) ≤ (1 + δ) ^ 3 * (1 + B) - 1 := by linarith
  exact this

theorem firstSeen_phase {δ B : ℝ} {n j : ℕ} {ψ : Vec} {z : ℂ} (hz : ‖z‖ = 1) (h : FirstSeen δ B n ψ j) :
    FirstSeen δ B n (fun i => z * ψ i) j := by
  simpa only [FirstSeen, norm_mul, hz, one_mul] using h

theorem state_near_turned {P : PhaseOps} {δ : ℝ} (hP : PhaseAccurate P δ) (hδ : δ < 1) {n j : ℕ} {φ ψ : Vec} {z : ℂ}
    {B : ℝ} (hz : ‖z‖ = 1) (hψ : normSqN n ψ = 1) (hg : gap n φ (fun i => z * ψ i) ≤ B) (hs : FirstSeen δ B n ψ j) :
    ∃ φ', flIgnoreGlobal P (amplitudes n φ) = amplitudes n φ' ∧ distance n φ' (turned ψ j) ≤ turnedErr δ B ψ j := by
  obtain ⟨φ', h1, h2⟩ := flIgnore_turned hP hδ (phase_norm hz hψ) hg (firstSeen_phase hz hs)
  rw [turned_phase hz] at h2
  refine ⟨φ', h1, h2.trans (le_of_eq ?_)⟩
  simp only [turnedErr, norm_mul, hz, one_mul]

/-- C95. The vector of a run with `ignore_global` without measurements, in arithmetic accurate to `ε` and `δ`, differs
from a multiple of the documented state by a complex number of size 1 by at most `(1 + δ)^3 (1 + κ)^N - 1`. -/
theorem C95_state (P : PhaseOps) (F : FloatOps) (n : ℕ) (ε ν Θ δ : ℝ) (hP : PhaseAccurate P δ) (hδ : δ < 1)
    (hF : Accurate F n ε ν) (hΘ : Real.pi / 2 ≤ Θ) (hκ : passErr ε Θ ≤ 1 / 2) (gates : List Gate) (es : List Elem)
    (hd : GatesDenote n gates es) (hv : ∀ e ∈ es, e.Valid n) (hu : ∀ e ∈ es, e.IsUnitary)
    (hA : ∀ e ∈ es, ∀ x ∈ e.angles, |x| ≤ Θ) (rnd : ℕ → ℝ) (hr : InUnit rnd) :
    ∃ w : ℂ, ‖w‖ = 1 ∧ ∃ φ,
      (flRunPhase P F n gates NpBackend.new ⟨none, none, true, rnd⟩).2 = .ok (.statevector (amplitudes n φ), rnd) ∧
      distance n φ (fun i => w * unitaries phDoc es (fun j => if j = 0 then 1 else 0) i) ≤
        (1 + δ) ^ 3 * (1 + passErr ε Θ) ^ passes es - 1 := by
  obtain ⟨z, hz, -, be, φ, h1, h2⟩ := C89_state F n ε ν Θ hF hΘ hκ gates es hd hv hu hA rnd hr
  obtain ⟨w, φ', hw, k1, k2⟩ := state_near_any hP hδ hz (doc_norm n es hv) h2
  refine ⟨w, hw, φ', ?_, by rwa [add_sub_cancel] at k2⟩
  rw [(C95_only_vector P F n gates NpBackend.new none none rnd).2.2, h1]
  simp only [Except.map, k1]

/-- C95: the same for the numba backend. -/
theorem C95_numba_state (P : PhaseOps) (K : NbFloat) (n : ℕ) (hn : n ≤ 64) (ε ν Θ δ : ℝ) (hP : PhaseAccurate P δ)
    (hδ : δ < 1) (hK : NbAccurate K n ε ν Θ) (hΘ : Real.pi / 2 ≤ Θ) (hκ : passErr ε Θ ≤ 1 / 2) (gates : List Gate)
    (es : List Elem) (hd : GatesDenote n gates es) (hv : ∀ e ∈ es, e.Valid n) (hu : ∀ e ∈ es, e.IsUnitary)
    (hA : ∀ e ∈ es, ∀ x ∈ e.angles, |x| ≤ Θ) (enableCache : Bool) (rnd : ℕ → ℝ) (hr : InUnit rnd) :
    ∃ w : ℂ, ‖w‖ = 1 ∧ ∃ φ,
      (flNbRunPhase P K n gates NbBackend.new ⟨none, none, enableCache, true, rnd, none⟩).2 =
        .ok (.statevector (amplitudes n φ), rnd) ∧
      distance n φ (fun i => w * unitaries phDoc es (fun j => if j = 0 then 1 else 0) i) ≤
        (1 + δ) ^ 3 * (1 + passErr ε Θ) ^ passes es - 1 := by
  obtain ⟨z, hz, -, be, φ, h1, h2⟩ := C91_state K n hn ε ν Θ hK hΘ hκ gates es hd hv hu hA enableCache rnd hr
  obtain ⟨w, φ', hw, k1, k2⟩ := state_near_any hP hδ hz (doc_norm n es hv) h2
  refine ⟨w, hw, φ', ?_, by rwa [add_sub_cancel] at k2⟩
  rw [(C95_numba_only_vector P K n gates NbBackend.new none none enableCache rnd none).2.2, h1]
  simp only [Except.map, k1]

/-- C95. If the first amplitude of the documented state that is above `10^-7` is amplitude `j`, and this is clear in spite
of rounding (`FirstSeen`), then the vector is close to the documented state turned so that this amplitude is positive. -/
theorem C95_turned (P : PhaseOps) (F : FloatOps) (n : ℕ) (ε ν Θ δ : ℝ) (hP : PhaseAccurate P δ) (hδ : δ < 1)
    (hF : Accurate F n ε ν) (hΘ : Real.pi / 2 ≤ Θ) (hκ : passErr ε Θ ≤ 1 / 2) (gates : List Gate) (es : List Elem)
    (hd : GatesDenote n gates es) (hv : ∀ e ∈ es, e.Valid n) (hu : ∀ e ∈ es, e.IsUnitary)
    (hA : ∀ e ∈ es, ∀ x ∈ e.angles, |x| ≤ Θ) (rnd : ℕ → ℝ) (hr : InUnit rnd) (ψ : Vec)
    (hψ : ψ = unitaries phDoc es (fun j => if j = 0 then 1 else 0)) (j : ℕ)
    (hs : FirstSeen δ ((1 + passErr ε Θ) ^ passes es - 1) n ψ j) :
    ∃ φ, (flRunPhase P F n gates NpBackend.new ⟨none, none, true, rnd⟩).2 = .ok (.statevector (amplitudes n φ), rnd) ∧
      distance n φ (turned ψ j) ≤ turnedErr δ ((1 + passErr ε Θ) ^ passes es - 1) ψ j := by
  subst hψ
  obtain ⟨z, hz, -, be, φ, h1, h2⟩ := C89_state F n ε ν Θ hF hΘ hκ gates es hd hv hu hA rnd hr
  obtain ⟨φ', k1, k2⟩ := state_near_turned hP hδ hz (doc_norm n es hv) h2 hs
  refine ⟨φ', ?_, k2⟩
  rw [(C95_only_vector P F n gates NpBackend.new none none rnd).2.2, h1]
  simp only [Except.map, k1]

/-- C95: the same for the numba backend. -/
theorem C95_numba_turned (P : PhaseOps) (K : NbFloat) (n : ℕ) (hn : n ≤ 64) (ε ν Θ δ : ℝ) (hP : PhaseAccurate P δ)
    (hδ : δ < 1) (hK : NbAccurate K n ε ν Θ) (hΘ : Real.pi / 2 ≤ Θ) (hκ : passErr ε Θ ≤ 1 / 2) (gates : List Gate)
    (es : List Elem) (hd : GatesDenote n gates es) (hv : ∀ e ∈ es, e.Valid n) (hu : ∀ e ∈ es, e.IsUnitary)
    (hA : ∀ e ∈ es, ∀ x ∈ e.angles, |x| ≤ Θ) (enableCache : Bool) (rnd : ℕ → ℝ) (hr : InUnit rnd) (ψ : Vec)
    (hψ : ψ = unitaries phDoc es (fun j => if j = 0 then 1 else 0)) (j : ℕ)
    (hs : FirstSeen δ ((1 + passErr ε Θ) ^ passes es - 1) n ψ j) :
    ∃ φ, (flNbRunPhase P K n gates NbBackend.new ⟨none, none, enableCache, true, rnd, none⟩).2 =
        .ok (.statevector (amplitudes n φ), rnd) ∧
      distance n φ (turned ψ j) ≤ turnedErr δ ((1 + passErr ε Θ) ^ passes es - 1) ψ j := by
  subst hψ
  obtain ⟨z, hz, -, be, φ, h1, h2⟩ := C91_state K n hn ε ν Θ hK hΘ hκ gates es hd hv hu hA enableCache rnd hr
  obtain ⟨φ', k1, k2⟩ := state_near_turned hP hδ hz (doc_norm n es hv) h2 hs
  refine ⟨φ', ?_, k2⟩
  rw [(C95_numba_only_vector P K n gates NbBackend.new none none enableCache rnd none).2.2, h1]
  simp only [Except.map, k1]

/-- C95: what `ignore_global` is for. Two circuits whose documented states differ by a global phase give, in floating
point and with either backend, vectors that differ by at most the two bounds together. -/
theorem C95_same (P P' : PhaseOps) (F : FloatOps) (K : NbFloat) (n : ℕ) (hn : n ≤ 64) (ε ν Θ δ : ℝ)
    (hP : PhaseAccurate P δ) (hP' : PhaseAccurate P' δ) (hδ : δ < 1) (hF : Accurate F n ε ν) (hK : NbAccurate K n ε ν Θ)
    (hΘ : Real.pi / 2 ≤ Θ) (hκ : passErr ε Θ ≤ 1 / 2) (gates gates' : List Gate) (es es' : List Elem)
    (hd : GatesDenote n gates es) (hd' : GatesDenote n gates' es') (hv : ∀ e ∈ es ++ es', e.Valid n)
    (hu : ∀ e ∈ es ++ es', e.IsUnitary) (hA : ∀ e ∈ es ++ es', ∀ x ∈ e.angles, |x| ≤ Θ) (enableCache : Bool)
    (rnd rnd' : ℕ → ℝ) (hr : InUnit rnd) (hr' : InUnit rnd') (ψ : Vec)
    (hψ : ψ = unitaries phDoc es (fun j => if j = 0 then 1 else 0)) (z : ℂ) (hz : ‖z‖ = 1)
    (hψ' : unitaries phDoc es' (fun j => if j = 0 then 1 else 0) = fun i => z * ψ i) (j : ℕ)
    (hs : FirstSeen δ ((1 + passErr ε Θ) ^ passes es - 1) n ψ j)
    (hs' : FirstSeen δ ((1 + passErr ε Θ) ^ passes es' - 1) n ψ j) :
    ∃ φ φ' φ'',
      (flRunPhase P F n gates NpBackend.new ⟨none, none, true, rnd⟩).2 = .ok (.statevector (amplitudes n φ), rnd) ∧
      (flRunPhase P F n gates' NpBackend.new ⟨none, none, true, rnd'⟩).2 = .ok (.statevector (amplitudes n φ'), rnd') ∧
      (flNbRunPhase P' K n gates' NbBackend.new ⟨none, none, enableCache, true, rnd', none⟩).2 =
        .ok (.statevector (amplitudes n φ''), rnd') ∧
      distance n φ φ' ≤ turnedErr δ ((1 + passErr ε Θ) ^ passes es - 1) ψ j +
        turnedErr δ ((1 + passErr ε Θ) ^ passes es' - 1) ψ j ∧
      distance n φ φ'' ≤ turnedErr δ ((1 + passErr ε Θ) ^ passes es - 1) ψ j +
        turnedErr δ ((1 + passErr ε Θ) ^ passes es' - 1) ψ j := by
  obtain ⟨φ, a1, a2⟩ := C95_turned P F n ε ν Θ δ hP hδ hF hΘ hκ gates es hd (fun e h => hv e (by simp [h]))
    (fun e h => hu e (by simp [h])) (fun e h => hA e (by simp [h])) rnd hr ψ hψ j hs
  have e : ∀ B, turnedErr δ B (fun i => z * ψ i) j = turnedErr δ B ψ j := fun B => by
    simp only [turnedErr, norm_mul, hz, one_mul]
  obtain ⟨φ', b1, b2⟩ := C95_turned P F n ε ν Θ δ hP hδ hF hΘ hκ gates' es' hd' (fun e h => hv e (by simp [h]))
    (fun e h => hu e (by simp [h])) (fun e h => hA e (by simp [h])) rnd' hr' _ hψ'.symm j (firstSeen_phase hz hs')
  obtain ⟨φ'', c1, c2⟩ := C95_numba_turned P' K n hn ε ν Θ δ hP' hδ hK hΘ hκ gates' es' hd' (fun e h => hv e (by simp [h]))
    (fun e h => hu e (by simp [h])) (fun e h => hA e (by simp [h])) enableCache rnd' hr' _ hψ'.symm j (firstSeen_phase hz hs')
  rw [turned_phase hz, e] at b2 c2
  have tri : ∀ χ, distance n χ (turned ψ j) ≤ turnedErr δ ((1 + passErr ε Θ) ^ passes es' - 1) ψ j →
      distance n φ χ ≤ turnedErr δ ((1 + passErr ε Θ) ^ passes es - 1) ψ j +
        turnedErr δ ((1 + passErr ε Θ) ^ passes es' - 1) ψ j := by
    intro χ hχ
    have h1 : distance n φ χ ≤ distance n φ (turned ψ j) + distance n (turned ψ j) χ := gap_triangle n φ (turned ψ j) χ
    have h2 : distance n (turned ψ j) χ = distance n χ (turned ψ j) := by
      simp only [distance]
      congr 1
      exact Finset.sum_congr rfl fun i _ => by rw [norm_sub_rev]
    linarith
  exact ⟨φ, φ', φ'', a1, b1, c1, tri φ' b2, tri φ'' c2⟩

/-- `Circuit(1).x[0]` and `Circuit(1).rx(pi)[0]`, whose states differ by the factor `-i`, in double precision: the
hypotheses hold, and the vectors returned with `ignore_global` differ by less than `10^-11`. -/
example : (∀ fl, RoundsTo fl (1 / 2 ^ 53) → PhaseAccurate (PhaseOps.rounded fl fun x y => √(x ^ 2 + y ^ 2))
      ((1 + 1 / 2 ^ 53) ^ 11 - 1)) ∧ ((1 + 1 / 2 ^ 53 : ℝ) ^ 11 - 1) < 1 ∧
    Real.pi / 2 ≤ 4 ∧ passErr (4 * (1 / 2 ^ 53)) 4 ≤ 1 / 2 ∧
    GatesDenote 1 [on1 .x ((0 : ℕ) : ℤ)] [.one .x 0] ∧
    GatesDenote 1 [on1 (.rx Real.pi) ((0 : ℕ) : ℤ)] [.one (.rx Real.pi) 0] ∧
    (∀ e ∈ ([.one .x 0] ++ [.one (.rx Real.pi) 0] : List Elem), e.Valid 1 ∧ e.IsUnitary ∧ ∀ x ∈ e.angles, |x| ≤ 4) ∧
    unitaries phDoc [.one (.rx Real.pi) 0] (fun j => if j = 0 then 1 else 0) =
      (fun i => -Complex.I * unitaries phDoc [.one .x 0] (fun j => if j = 0 then 1 else 0) i) ∧
    FirstSeen ((1 + 1 / 2 ^ 53) ^ 11 - 1) ((1 + passErr (4 * (1 / 2 ^ 53)) 4) ^ passes [.one .x 0] - 1) 1
      (unitaries phDoc [.one .x 0] (fun j => if j = 0 then 1 else 0)) 1 ∧
    2 * turnedErr ((1 + 1 / 2 ^ 53) ^ 11 - 1) ((1 + passErr (4 * (1 / 2 ^ 53)) 4) ^ 1 - 1)
      (unitaries phDoc [.one .x 0] (fun j => if j = 0 then 1 else 0)) 1 ≤ 1 / 10 ^ 11 := by
  have h0 : unitaries phDoc [.one .x 0] (fun j => if j = 0 then 1 else 0) 0 = 0 := by
    simp [unitaries, Elem.unitary, matrix1, app, mX, flipBit]
  have h1 : unitaries phDoc [.one .x 0] (fun j => if j = 0 then 1 else 0) 1 = 1 := by
    simp [unitaries, Elem.unitary, matrix1, app, mX, flipBit]
  refine ⟨fun fl hfl => C95_doubles fl _ _ (by norm_num) (by norm_num) hfl (fun x y => by simp),
    by norm_num, by have := Real.pi_le_four; linarith, by norm_num [passErr], on1_denote _ 0 rfl, on1_denote _ 0 rfl,
    ?_, ?_, ⟨by norm_num, ?_, ?_⟩, ?_⟩
  · simp only [List.cons_append, List.nil_append, List.mem_cons, List.not_mem_nil, or_false, forall_eq_or_imp, forall_eq,
      Elem.Valid, Elem.IsUnitary, Elem.angles, true_and, and_true]
    refine ⟨by simp, ?_⟩
    rw [abs_of_pos Real.pi_pos]
    exact ⟨by norm_num, Real.pi_le_four⟩
  · funext i
    simp only [unitaries, Elem.unitary, matrix1, List.foldl_cons, List.foldl_nil, app, mX, mRX, Real.cos_pi_div_two,
      Real.sin_pi_div_two, Complex.ofReal_zero, Complex.ofReal_one]
    split <;> simp
  · intro i hi
    obtain rfl : i = 0 := by omega
    rw [h0]
    norm_num [passErr, passes, Elem.passes]
  · rw [h1]
    norm_num [passErr, passes, Elem.passes]
  · rw [turnedErr, h1]
    norm_num [passErr, passes, Elem.passes]

/-! ## The condition is needed -/

theorem ignore_first {a b : ℂ} (h : ‖a‖ > 0.0000001) :
    ignoreGlobalPhase [a, b] = [a * ((‖a‖ : ℂ) / a), b * ((‖a‖ : ℂ) / a)] := by
  have hf : [a, b].find? (fun q => decide (‖q‖ > 0.0000001)) = some a := List.find?_cons_of_pos (by simpa using h)
  simp only [ignoreGlobalPhase, hf, List.map_cons, List.map_nil]

theorem ignore_second {a b : ℂ} (ha : ¬ ‖a‖ > 0.0000001) (h : ‖b‖ > 0.0000001) :
    ignoreGlobalPhase [a, b] = [a * ((‖b‖ : ℂ) / b), b * ((‖b‖ : ℂ) / b)] := by
  have hf : [a, b].find? (fun q => decide (‖q‖ > 0.0000001)) = some b := by
    rw [List.find?_cons_of_neg (by simpa using ha)]
    exact List.find?_cons_of_pos (by simpa using h)
  simp only [ignoreGlobalPhase, hf, List.map_cons, List.map_nil]

theorem amplitudes_one (φ : Vec) : amplitudes 1 φ = [φ 0, φ 1] := rfl

theorem ignored_run (θ : ℝ) (rnd : ℕ → ℝ) :
    freshRun 1 [on1 (.ry θ) ((0 : ℕ) : ℤ), on1 .s ((0 : ℕ) : ℤ)] ⟨none, none, true, rnd⟩ =
      .ok (.statevector (ignoreGlobalPhase [(Real.cos (θ / 2) : ℂ), Complex.I * Real.sin (θ / 2)]), rnd) := by
  obtain ⟨z, -, hz, h⟩ := C08_run 1 [on1 (.ry θ) ((0 : ℕ) : ℤ), on1 .s ((0 : ℕ) : ℤ)] [.one (.ry θ) 0, .one .s 0]
    (on1_denote _ 0 (on1_denote _ 0 rfl)) (by simp [Elem.Valid]) (by simp [Elem.IsUnitary]) rnd
  rw [hz (by simp [Elem.IsCu1])] at h
  have e := (C95_exact 1 [on1 (.ry θ) ((0 : ℕ) : ℤ), on1 .s ((0 : ℕ) : ℤ)] NpBackend.new ⟨none, none, true, rnd⟩
    NbBackend.new ⟨none, none, true, true, rnd, none⟩).1
  rw [freshRun, ← e, (C95_only_vector .exact .exact 1 _ NpBackend.new none none rnd).2.2, C89_exact]
  rw [freshRun] at h
  rw [h]
  simp only [Except.map, flIgnore_exact]
  congr 4
  simp [amplitudes, List.range_succ, unitaries, Elem.unitary, matrix1, app, mRY, mS, flipBit]

/-- C95: the condition that it is clear which amplitude decides cannot be dropped, even in exact arithmetic.
`Circuit(1).ry(theta)[0].s[0]` with `ignore_global`: arbitrarily small changes of `theta` change the vector by more
than 1. -/
theorem C95_jump (η : ℝ) (hη : 0 < η) : ∃ (θ θ' : ℝ) (v v' : Vec), |θ - θ'| ≤ η ∧
    (∀ rnd, freshRun 1 [on1 (.ry θ) ((0 : ℕ) : ℤ), on1 .s ((0 : ℕ) : ℤ)] ⟨none, none, true, rnd⟩ =
      .ok (.statevector (amplitudes 1 v), rnd)) ∧
    (∀ rnd, freshRun 1 [on1 (.ry θ') ((0 : ℕ) : ℤ), on1 .s ((0 : ℕ) : ℤ)] ⟨none, none, true, rnd⟩ =
      .ok (.statevector (amplitudes 1 v'), rnd)) ∧
    1 ≤ distance 1 v v' := by
  obtain ⟨r, hr, hcont⟩ := Metric.continuousAt_iff.1 (Real.continuous_arccos.continuousAt (x := 1 / 10 ^ 7)) (η / 2)
    (by linarith)
  set c : ℝ := 1 / 10 ^ 7 + min (r / 2) (1 / 10 ^ 7) with hc
  have hm : 0 < min (r / 2) (1 / 10 ^ 7 : ℝ) := lt_min (by linarith) (by norm_num)
  have hm1 : min (r / 2) (1 / 10 ^ 7 : ℝ) ≤ r / 2 := min_le_left _ _
  have hm2 : min (r / 2) (1 / 10 ^ 7 : ℝ) ≤ 1 / 10 ^ 7 := min_le_right _ _
  have hc1 : 1 / 10 ^ 7 < c := by linarith
  have hc2 : c ≤ 1 / 10 ^ 6 := by linarith
  have hdist := hcont (x := c) (by rw [Real.dist_eq, hc, add_sub_cancel_left, abs_of_pos hm]; linarith)
  rw [Real.dist_eq] at hdist
  have cos0 : Real.cos (2 * Real.arccos (1 / 10 ^ 7) / 2) = 1 / 10 ^ 7 := by
    rw [mul_div_cancel_left₀ _ (by norm_num : (2 : ℝ) ≠ 0), Real.cos_arccos (by norm_num) (by norm_num)]
  have sin0 : Real.sin (2 * Real.arccos (1 / 10 ^ 7) / 2) = √(1 - (1 / 10 ^ 7) ^ 2) := by
    rw [mul_div_cancel_left₀ _ (by norm_num : (2 : ℝ) ≠ 0), Real.sin_arccos]
  have cos1 : Real.cos (2 * Real.arccos c / 2) = c := by
    rw [mul_div_cancel_left₀ _ (by norm_num : (2 : ℝ) ≠ 0), Real.cos_arccos (by linarith) (by linarith)]
  have sin1 : Real.sin (2 * Real.arccos c / 2) = √(1 - c ^ 2) := by
    rw [mul_div_cancel_left₀ _ (by norm_num : (2 : ℝ) ≠ 0), Real.sin_arccos]
  have hs0 : 9 / 10 < √(1 - (1 / 10 ^ 7) ^ 2 : ℝ) := Real.lt_sqrt_of_sq_lt (by norm_num)
  have hs1 : 9 / 10 < √(1 - c ^ 2) := Real.lt_sqrt_of_sq_lt (by nlinarith)
  generalize √(1 - (1 / 10 ^ 7) ^ 2 : ℝ) = s0 at *
  generalize √(1 - c ^ 2) = s1 at *
  have e0 : ignoreGlobalPhase [((1 / 10 ^ 7 : ℝ) : ℂ), Complex.I * (s0 : ℝ)] =
      amplitudes 1 (fun i => if i = 0 then ((1 / 10 ^ 7 : ℝ) : ℂ) * -Complex.I else (s0 : ℂ)) := by
    have n0 : ¬ ‖((1 / 10 ^ 7 : ℝ) : ℂ)‖ > 0.0000001 := by
      rw [Complex.norm_real, Real.norm_eq_abs, abs_of_pos (by norm_num)]; norm_num
    have n1 : ‖Complex.I * (s0 : ℂ)‖ = s0 := by
      rw [norm_mul, Complex.norm_I, one_mul, Complex.norm_real, Real.norm_eq_abs, abs_of_pos (by linarith)]
    have n2 : ‖Complex.I * (s0 : ℂ)‖ > 0.0000001 := by rw [n1]; norm_num; linarith
    have hs : (s0 : ℂ) ≠ 0 := by exact_mod_cast (by linarith : s0 ≠ 0)
    have ha : (s0 : ℂ) / (Complex.I * s0) = -Complex.I := by
      rw [div_eq_iff (mul_ne_zero Complex.I_ne_zero hs)]
      rw [← mul_assoc, neg_mul, Complex.I_mul_I]; ring
    rw [ignore_second n0 n2, n1, ha, amplitudes_one, if_pos rfl, if_neg one_ne_zero]
    congr 2
    rw [show Complex.I * (s0 : ℂ) * -Complex.I = -(s0 * (Complex.I * Complex.I)) by ring, Complex.I_mul_I]; ring
  have e1 : ignoreGlobalPhase [(c : ℂ), Complex.I * (s1 : ℝ)] =
      amplitudes 1 (fun i => if i = 0 then (c : ℂ) else Complex.I * (s1 : ℂ)) := by
    have n1 : ‖(c : ℂ)‖ = c := by rw [Complex.norm_real, Real.norm_eq_abs, abs_of_pos (by linarith)]
    have n2 : ‖(c : ℂ)‖ > 0.0000001 := by rw [n1]; norm_num; linarith
    have hs : (c : ℂ) ≠ 0 := by exact_mod_cast (by linarith : c ≠ 0)
    rw [ignore_first n2, n1, div_self hs, amplitudes_one, if_pos rfl, if_neg one_ne_zero, mul_one, mul_one]
  refine ⟨2 * Real.arccos (1 / 10 ^ 7), 2 * Real.arccos c,
    fun i => if i = 0 then ((1 / 10 ^ 7 : ℝ) : ℂ) * -Complex.I else (s0 : ℂ), fun i => if i = 0 then (c : ℂ) else Complex.I * (s1 : ℂ),
    ?_, fun rnd => ?_, fun rnd => ?_, ?_⟩
  · rw [← mul_sub, abs_mul, abs_of_pos (by norm_num : (0 : ℝ) < 2), abs_sub_comm]; linarith
  · rw [ignored_run, cos0, sin0, e0]
  · rw [ignored_run, cos1, sin1, e1]
  · rw [distance]
    refine Real.le_sqrt_of_sq_le ?_
    rw [show (2 : ℕ) ^ 1 = 2 from rfl, Finset.sum_range_succ, Finset.sum_range_one]
    have : ‖(s0 : ℂ) - Complex.I * s1‖ ^ 2 = s0 ^ 2 + s1 ^ 2 := by
      rw [Complex.sq_norm, Complex.normSq_apply]; simp; ring
    simp only [if_true, if_neg one_ne_zero, this]
    have := sq_nonneg ‖((1 / 10 ^ 7 : ℝ) : ℂ) * -Complex.I - (c : ℂ)‖
    nlinarith

end

end Blueqat
