import Verif.VqeFloatLemmas
import Verif.Props.NbFloat

/-!
# C97: probabilities and energies in floating point

`flNonSampling V R` is `non_sampling_sampler` and `flGetEnergy V` is `AnsatzBase.get_energy`, with the arithmetic `V` and
circuits run by `R`, for which `flNpStatevector F` (numpy) or `flNbStatevector K` (numba) can be put. `VqeAccurate V δ`
(Verif/Spec/EnergyFloat.lean) says that the operations of `V` have relative errors of at most `δ`, `RunsNear R n Θ κ` that
circuits are run with relative errors of at most `κ` for each pass over the state.
-/

set_option linter.unusedSimpArgs false
set_option linter.unusedVariables false

namespace Blueqat

open Spec

noncomputable section

/-! ## What the hypotheses mean -/

/-- Arithmetic which rounds with a relative error of `u` after every operation on floats is accurate to `4u`. -/
theorem C97_doubles (fl : ℝ → ℝ) (u : ℝ) (hu : 0 ≤ u) (hu4 : u ≤ 1 / 4) (hfl : RoundsTo fl u) :
    VqeAccurate (VqeOps.rounded fl) (4 * u) := by
  have hF := C89_doubles fl Real.cos Real.sin u 0 hu hu4 hfl (by simp [hu]) (by simp [hu])
  have up : ∀ {x y : ℝ}, |x - y| ≤ u * |y| → |x - y| ≤ 4 * u * |y| := fun h =>
    h.trans (mul_le_mul_of_nonneg_right (by linarith) (abs_nonneg _))
  refine ⟨fun x => ?_, fun x y => up (hfl _), fun p c => hF.mul p c, fun a b => hF.add a b, fun a b => hF.sub a b⟩
  have := up (hfl (x * x))
  rw [abs_of_nonneg (mul_self_nonneg x), ← sq] at this
  simpa [VqeOps.rounded, ← sq] using this

example : VqeAccurate (VqeOps.rounded roundDouble) (4 * (1 / 2 ^ 53)) :=
  C97_doubles _ _ (by norm_num) (by norm_num) roundDouble_rounds

/-- The numpy backend in arithmetic accurate to `ε` runs circuits with a relative error of `44 (1 + Θ) ε` in each pass. -/
theorem C97_numpy_runs (F : FloatOps) (n : ℕ) (ε ν Θ : ℝ) (hF : Accurate F n ε ν) (hΘ : Real.pi / 2 ≤ Θ)
    (hκ : passErr ε Θ ≤ 1 / 2) : RunsNear (flNpStatevector F) n Θ (passErr ε Θ) := by
  intro gates es rnd hr hd hv hu hA
  obtain ⟨z, hz, -, be, φ, h1, h2⟩ := C89_state F n ε ν Θ hF hΘ hκ gates es hd hv hu hA rnd hr
  refine ⟨z, φ, hz, ?_, h2⟩
  have h3 : flRunArgs F n gates NpBackend.new none (some "statevector") rnd =
      flRunArgs F n gates NpBackend.new none none rnd := rfl
  simp only [flNpStatevector, h3, h1, asStatevector]

/-- The same for the numba backend. -/
theorem C97_numba_runs (K : NbFloat) (n : ℕ) (hn : n ≤ 64) (ε ν Θ : ℝ) (hK : NbAccurate K n ε ν Θ)
    (hΘ : Real.pi / 2 ≤ Θ) (hκ : passErr ε Θ ≤ 1 / 2) : RunsNear (flNbStatevector K) n Θ (passErr ε Θ) := by
  intro gates es rnd hr hd hv hu hA
  obtain ⟨z, hz, -, be, φ, h1, h2⟩ := C91_state K n hn ε ν Θ hK hΘ hκ gates es hd hv hu hA true rnd hr
  refine ⟨z, φ, hz, ?_, h2⟩
  have h3 : flNbRunArgs K n gates NbBackend.new none (some "statevector") true rnd none =
      flNbRunArgs K n gates NbBackend.new none none true rnd none := rfl
  simp only [flNbStatevector, h3, h1, asStatevector]

theorem flExpectLoop_exact (mask : ℕ) : ∀ (l : List ℂ) (i : ℕ) (c : PyDict ℕ ℝ),
    flExpectLoop .exact mask i l c = expectLoop mask i l c := by
  intro l
  induction l with
  | nil => intro i c; rfl
  | cons z l ih => intro i c; simp only [flExpectLoop, expectLoop, ih]; rfl

theorem flEnergySum_exact (coeff : ℂ) (d : PyDict (List ℕ) ℝ) : ∀ val,
    flEnergySum .exact coeff d val = energySum coeff d val := by
  induction d with
  | nil => intro val; rfl
  | cons p d ih => obtain ⟨a, b⟩ := p; intro val; simp only [flEnergySum, energySum, ih]; rfl

/-- In exact arithmetic the sampler and the energy are those of the model the other properties are about. -/
theorem C97_exact (H : PExpr) (c : OpsVal) (meas : List ℤ) (sampler : Sampler) (rnd : ℕ → ℝ) :
    flNonSampling .exact (flNpStatevector .exact) c meas rnd = nonSamplingSampler c meas rnd ∧
    flGetEnergy .exact H c sampler rnd = getEnergy H c sampler rnd := by
  constructor
  · have h1 : flNpStatevector .exact c rnd = runStatevector c rnd := by
      simp only [flNpStatevector, runStatevector, C89_exact]
    have h2 : ∀ q, flExpect .exact q meas = expect q meas := by
      intro q
      simp only [flExpect, expect, flExpectLoop_exact]
    simp only [flNonSampling, nonSamplingSampler, h1, h2]
  · have hL : ∀ (ts : List PTerm) val rnd, flEnergyLoop .exact sampler c ts val rnd = energyLoop sampler c ts val rnd := by
      intro ts
      induction ts with
      | nil => intro val rnd; rfl
      | cons t ts ih =>
        intro val rnd
        simp only [flEnergyLoop, energyLoop, flEnergySum_exact, ih]
    simp only [flGetEnergy, getEnergy, hL]

/-! ## Probabilities of outcomes -/

theorem unitaries_norm {n : ℕ} {es : List Elem} (hv : ∀ e ∈ es, e.Valid n) (z : ℂ) (hz : ‖z‖ = 1) :
    normSqN n (fun i => z * unitaries phDoc es (fun j => if j = 0 then 1 else 0) i) = 1 := by
  have hone : normSqN n (unitaries phDoc es (fun j => if j = 0 then 1 else 0)) = 1 :=
    ((isom_unitaries (ph := phDoc) (fun _ => by simp [phDoc]) es hv).norm zeroVec).trans (normSqN_zero n)
  simp only [normSqN, norm_mul, hz, one_mul] at hone ⊢
  exact hone

/-- The probability of an outcome in a state near `ψ`. -/
theorem outcomeProb_near (n : ℕ) (φ ψ : Vec) (B : ℝ) (hψ : normSqN n ψ = 1)
    (h : √(∑ i ∈ Finset.range (2 ^ n), ‖φ i - ψ i‖ ^ 2) ≤ B) (meas : List ℕ) (key : List ℕ) :
    |outcomeProb (amplitudes n φ) meas key - outcomeProb (amplitudes n ψ) meas key| ≤ (1 + B) ^ 2 - 1 ∧
    outcomeProb (amplitudes n φ) meas key ≤ (1 + B) ^ 2 := by
  have hlen : ∀ φ : Vec, (amplitudes n φ).length = 2 ^ n := by simp [amplitudes]
  have hget : ∀ (φ : Vec) i, i ∈ Finset.range (2 ^ n) → (amplitudes n φ).getD i 0 = φ i := by
    intro φ i hi
    have : i < 2 ^ n := by simpa using hi
    simp [amplitudes, this]
  have hs : ∀ φ : Vec, outcomeProb (amplitudes n φ) meas key =
      ∑ i ∈ (Finset.range (2 ^ n)).filter (fun i => bitsAt meas i = key), ‖φ i‖ ^ 2 := by
    intro φ
    rw [outcomeProb, hlen]
    exact Finset.sum_congr rfl fun i hi => by rw [hget φ i (Finset.mem_filter.1 hi).1]
  have h1 : |outcomeProb (amplitudes n φ) meas key - outcomeProb (amplitudes n ψ) meas key| ≤ (1 + B) ^ 2 - 1 := by
    rw [hs, hs]
    have := probabilities_near n φ ψ B hψ h _ (Finset.filter_subset (fun i => bitsAt meas i = key) _)
    refine this.trans (le_of_eq (by ring))
  refine ⟨h1, ?_⟩
  have h2 : outcomeProb (amplitudes n ψ) meas key ≤ 1 := by
    rw [hs, ← hψ, normSqN]
    exact Finset.sum_le_sum_of_subset_of_nonneg (Finset.filter_subset _ _) fun i _ _ => by positivity
  have := (abs_le.1 h1).2
  linarith

theorem sq_pow_passes (κ : ℝ) (N : ℕ) : (1 + ((1 + κ) ^ N - 1)) ^ 2 = (1 + κ) ^ (2 * N) := by
  rw [mul_comm 2, pow_mul]; ring

/-- C97. `non_sampling_sampler` in floating point: the probability it gives for an outcome (0 if it gives none) differs
from the probability of the outcome in the documented state by at most `outcomeErr`. Every circuit of unitary gates with
valid targets, every list of qubits. -/
theorem C97_outcomes (V : VqeOps) (δ : ℝ) (hV : VqeAccurate V δ) (hδ : 0 ≤ δ) (hδ4 : δ ≤ 1 / 4) (R : StateRunner) (n : ℕ)
    (Θ κ : ℝ) (hR : RunsNear R n Θ κ) (gates : List Gate) (es : List Elem) (hd : GatesDenote n gates es)
    (hv : ∀ e ∈ es, e.Valid n) (hu : ∀ e ∈ es, e.IsUnitary) (hA : ∀ e ∈ es, ∀ x ∈ e.angles, |x| ≤ Θ) (meas : List ℕ)
    (rnd : ℕ → ℝ) (hr : InUnit rnd) :
    ∃ d, flNonSampling V R ⟨n, gates⟩ (meas.map (fun q : ℕ => (q : ℤ))) rnd = (⟨n, gates⟩, .ok (d, rnd)) ∧
      (d.map Prod.fst).Nodup ∧ (∀ p ∈ d, ∃ i < 2 ^ n, p.1 = bitsAt meas i) ∧
      ∀ key, |(d.get key).getD 0 -
          ∑ i ∈ (Finset.range (2 ^ n)).filter (fun i => bitsAt meas i = key),
            ‖unitaries phDoc es (fun j => if j = 0 then 1 else 0) i‖ ^ 2| ≤ outcomeErr δ κ n (passes es) := by
  obtain ⟨z, φ, hz, h1, h2⟩ := hR gates es rnd hr hd hv hu hA
  obtain ⟨d', e1, e2, e3, -⟩ := C43_expect (amplitudes n φ) meas
  obtain ⟨d, f1, f2⟩ := flExpect_near hV hδ hδ4 _ _ e1
  have hlen : (amplitudes n φ).length = 2 ^ n := by simp [amplitudes]
  rw [hlen] at f2
  refine ⟨d, ?_, by rw [f2.keys]; exact e2, ?_, ?_⟩
  · simp only [flNonSampling, h1, f1, bind, Except.bind]
  · intro p hp
    have hk : p.1 ∈ d'.map Prod.fst := by rw [← f2.keys]; exact List.mem_map_of_mem hp
    have hg : d'.get p.1 ≠ none := by rw [Ne, PyDict.get_eq_none, not_not]; exact hk
    rw [e3] at hg
    by_cases h0 : outcomeProb (amplitudes n φ) meas p.1 = 0
    · simp [h0] at hg
    · obtain ⟨i, hi, -⟩ := Finset.exists_ne_zero_of_sum_ne_zero h0
      have := Finset.mem_filter.1 hi
      rw [hlen] at this
      exact ⟨i, by simpa using this.1, this.2.symm⟩
  · intro key
    have g := (f2.get key).2
    have ge : (d'.get key).getD 0 = outcomeProb (amplitudes n φ) meas key := by
      rw [e3]; split_ifs with h <;> simp [h]
    rw [ge] at g
    obtain ⟨k1, k2⟩ := outcomeProb_near n φ _ _ (unitaries_norm hv z hz) h2 meas key
    have hs : outcomeProb (amplitudes n (fun i => z * unitaries phDoc es (fun j => if j = 0 then 1 else 0) i)) meas key =
        ∑ i ∈ (Finset.range (2 ^ n)).filter (fun i => bitsAt meas i = key),
          ‖unitaries phDoc es (fun j => if j = 0 then 1 else 0) i‖ ^ 2 := by
      rw [outcomeProb, show (amplitudes n _).length = 2 ^ n by simp [amplitudes]]
      refine Finset.sum_congr rfl fun i hi => ?_
      have : i < 2 ^ n := by simpa using (Finset.mem_filter.1 hi).1
      simp [amplitudes, this, hz]
    rw [hs] at k1
    rw [sq_pow_passes] at k1 k2
    have hone : 0 ≤ (1 + δ) ^ (2 ^ n + 2) - 1 := by
      have := one_le_pow₀ (show (1 : ℝ) ≤ 1 + δ by linarith) (n := 2 ^ n + 2); linarith
    have g2 := g.trans (mul_le_mul_of_nonneg_left k2 hone)
    have := abs_sub_le ((d.get key).getD 0) (outcomeProb (amplitudes n φ) meas key) (∑ i ∈ (Finset.range (2 ^ n)).filter (fun i => bitsAt meas i = key),
          ‖unitaries phDoc es (fun j => if j = 0 then 1 else 0) i‖ ^ 2)
    rw [outcomeErr]
    linarith

/-- `h[0]` in double precision on numpy: the hypotheses hold, and each outcome has the probability 1/2 up to 10⁻¹². -/
example (fl : ℝ → ℝ) (hfl : RoundsTo fl (1 / 2 ^ 53)) (rnd : ℕ → ℝ) (hr : InUnit rnd) :
    ∃ d, flNonSampling (VqeOps.rounded fl) (flNpStatevector (FloatOps.rounded fl Real.cos Real.sin)) ⟨1, [on1 .h 0]⟩ [0] rnd =
        (⟨1, [on1 .h 0]⟩, .ok (d, rnd)) ∧
      |(d.get [0]).getD 0 - 1 / 2| ≤ 1 / 10 ^ 12 ∧ |(d.get [1]).getD 0 - 1 / 2| ≤ 1 / 10 ^ 12 := by
  have hpi : Real.pi / 2 ≤ 2 := by have := Real.pi_le_four; linarith
  have hF := C89_doubles fl Real.cos Real.sin (1 / 2 ^ 53) 1 (by norm_num) (by norm_num) hfl (by simp) (by simp)
  have hκ : passErr (4 * (1 / 2 ^ 53)) 2 ≤ 1 / 2 := by norm_num [passErr]
  obtain ⟨d, h1, -, -, h4⟩ := C97_outcomes (VqeOps.rounded fl) (4 * (1 / 2 ^ 53))
    (C97_doubles fl _ (by norm_num) (by norm_num) hfl) (by norm_num) (by norm_num) _ 1 2 _
    (C97_numpy_runs _ 1 _ _ _ hF hpi hκ) [on1 .h 0] [.one .h 0] (on1_denote .h 0 rfl) (by simp [Elem.Valid])
    (by simp [Elem.IsUnitary]) (by simp [Elem.angles]) [0] rnd hr
  refine ⟨d, h1, ?_, ?_⟩
  · have := h4 [0]
    rw [show (Finset.range (2 ^ 1)).filter (fun i => bitsAt [0] i = [0]) = {0} by decide, Finset.sum_singleton,
      show unitaries phDoc [.one .h 0] (fun j => if j = 0 then 1 else 0) 0 = app mH 0 (fun j => if j = 0 then 1 else 0) 0
        from rfl] at this
    simp [app, mH, flipBit] at this
    rw [show (1 / 2 : ℝ) = 2⁻¹ by norm_num]
    refine this.trans ?_
    norm_num [outcomeErr, passErr, passes, Elem.passes]
  · have := h4 [1]
    rw [show (Finset.range (2 ^ 1)).filter (fun i => bitsAt [0] i = [1]) = {1} by decide, Finset.sum_singleton,
      show unitaries phDoc [.one .h 0] (fun j => if j = 0 then 1 else 0) 1 = app mH 0 (fun j => if j = 0 then 1 else 0) 1
        from rfl] at this
    simp [app, mH, flipBit] at this
    rw [show (1 / 2 : ℝ) = 2⁻¹ by norm_num]
    refine this.trans ?_
    norm_num [outcomeErr, passErr, passes, Elem.passes]

/-- C97. `most_common(m)` in floating point: an outcome that is left out is at most `2 * outcomeErr` more probable than
one that is returned. -/
theorem C97_most_common (V : VqeOps) (δ : ℝ) (hV : VqeAccurate V δ) (hδ : 0 ≤ δ) (hδ4 : δ ≤ 1 / 4) (R : StateRunner)
    (n : ℕ) (Θ κ : ℝ) (hR : RunsNear R n Θ κ) (gates : List Gate) (es : List Elem) (hd : GatesDenote n gates es)
    (hv : ∀ e ∈ es, e.Valid n) (hu : ∀ e ∈ es, e.IsUnitary) (hA : ∀ e ∈ es, ∀ x ∈ e.angles, |x| ≤ Θ) (m : ℤ)
    (rnd : ℕ → ℝ) (hr : InUnit rnd) :
    ∃ r out, (⟨some (flNonSampling V R), ⟨n, gates⟩, none⟩ : VqeResult).mostCommon m rnd = (r, .ok (out, rnd)) ∧
      (∀ p ∈ out, ∃ i < 2 ^ n, p.1 = bitsAt (List.range n) i ∧
        |p.2 - ‖unitaries phDoc es (fun j => if j = 0 then 1 else 0) i‖ ^ 2| ≤ outcomeErr δ κ n (passes es) ∧
        ∀ k < 2 ^ n, (∀ p' ∈ out, p'.1 ≠ bitsAt (List.range n) k) →
          ‖unitaries phDoc es (fun j => if j = 0 then 1 else 0) k‖ ^ 2 ≤
            ‖unitaries phDoc es (fun j => if j = 0 then 1 else 0) i‖ ^ 2 + 2 * outcomeErr δ κ n (passes es)) := by
  set ψ := unitaries phDoc es (fun j => if j = 0 then 1 else 0) with hψ
  obtain ⟨d, h1, h2, h3, h4⟩ := C97_outcomes V δ hV hδ hδ4 R n Θ κ hR gates es hd hv hu hA (List.range n) rnd hr
  have hfil : ∀ i < 2 ^ n, ∑ k ∈ (Finset.range (2 ^ n)).filter (fun k => bitsAt (List.range n) k = bitsAt (List.range n) i),
      ‖ψ k‖ ^ 2 = ‖ψ i‖ ^ 2 := by
    intro i hi
    rw [Finset.sum_eq_single_of_mem i (by simp [hi])]
    intro k hk hne
    have hk' := Finset.mem_filter.1 hk
    exact absurd (bitsAt_range_inj (by simpa using hk'.1) hi hk'.2) hne
  have h4' : ∀ i < 2 ^ n, |(d.get (bitsAt (List.range n) i)).getD 0 - ‖ψ i‖ ^ 2| ≤ outcomeErr δ κ n (passes es) := by
    intro i hi
    have := h4 (bitsAt (List.range n) i)
    rwa [hfil i hi] at this
  have hq : qubitRange n = (List.range n).map (fun q : ℕ => (q : ℤ)) := rfl
  have hprobs : (⟨some (flNonSampling V R), ⟨n, gates⟩, none⟩ : VqeResult).getProbs none none true rnd =
      (⟨some (flNonSampling V R), ⟨n, gates⟩, some d⟩, .ok (d, rnd)) := by
    simp only [VqeResult.getProbs, VqeResult.measureProbs, hq, h1, if_true]
  obtain ⟨out, left, g1, g2, -, -, g5, -⟩ := C47_most_common _ _ m rnd rnd d hprobs
  refine ⟨_, out, g1, ?_⟩
  intro p hp
  have hpd : p ∈ d := g2.subset (by simp [hp])
  obtain ⟨i, hi, hpi⟩ := h3 p hpd
  have hgp : d.get (bitsAt (List.range n) i) = some p.2 := by
    rw [← hpi]; exact PyDict.get_of_mem h2 hpd
  have hpi2 := h4' i hi
  rw [hgp, Option.getD_some] at hpi2
  refine ⟨i, hi, hpi, hpi2, ?_⟩
  intro k hk hout
  have hk2 := h4' k hk
  cases hgk : d.get (bitsAt (List.range n) k) with
  | none =>
    rw [hgk, Option.getD_none, zero_sub, abs_neg] at hk2
    have e0 := le_trans (le_abs_self _) hk2
    have e1 : 0 ≤ outcomeErr δ κ n (passes es) := (abs_nonneg _).trans hpi2
    have e2 : 0 ≤ ‖ψ i‖ ^ 2 := by positivity
    linarith
  | some x =>
    have hm : (bitsAt (List.range n) k, x) ∈ d := PyDict.get_mem hgk
    rcases List.mem_append.1 (g2.symm.subset hm) with h | h
    · exact absurd rfl (hout _ h)
    · have hle := g5 p hp _ h
      simp only at hle
      rw [hgk, Option.getD_some] at hk2
      have a1 := (abs_le.1 hk2).1
      have a2 := (abs_le.1 hpi2).2
      linarith

/-! ## Energies -/

/-- The operations of the change of basis. -/
def basisElems (θ : ℝ) : List POp → List Elem
  | [] => []
  | o :: ops =>
    match o.p with
    | .X => .one .h o.n :: basisElems θ ops
    | .Y => .one (.rx θ) o.n :: basisElems θ ops
    | .Z => basisElems θ ops

theorem basisElems_denote (n : ℕ) (θ : ℝ) (ops : List POp) : GatesDenote n (basisGates θ ops) (basisElems θ ops) := by
  induction ops with
  | nil => rfl
  | cons o ops ih =>
    obtain ⟨p, q⟩ := o
    cases p with
    | X => exact on1_denote _ _ ih
    | Y => exact on1_denote _ _ ih
    | Z => exact ih

theorem basisElems_mem {θ : ℝ} {ops : List POp} {e : Elem} (h : e ∈ basisElems θ ops) :
    ∃ o ∈ ops, e = .one .h o.n ∨ e = .one (.rx θ) o.n := by
  induction ops with
  | nil => simp [basisElems] at h
  | cons o ops ih =>
    obtain ⟨p, q⟩ := o
    cases p <;> simp only [basisElems, List.mem_cons] at h
    · rcases h with rfl | h
      · exact ⟨⟨.X, q⟩, by simp, .inl rfl⟩
      · obtain ⟨o, ho, he⟩ := ih h; exact ⟨o, by simp [ho], he⟩
    · rcases h with rfl | h
      · exact ⟨⟨.Y, q⟩, by simp, .inr rfl⟩
      · obtain ⟨o, ho, he⟩ := ih h; exact ⟨o, by simp [ho], he⟩
    · obtain ⟨o, ho, he⟩ := ih h; exact ⟨o, by simp [ho], he⟩

theorem basisElems_passes (θ : ℝ) (ops : List POp) : passes (basisElems θ ops) = xyCount ops := by
  induction ops with
  | nil => rfl
  | cons o ops ih =>
    obtain ⟨p, q⟩ := o
    simp only [xyCount] at ih
    cases p <;> simp [basisElems, xyCount, passes_cons, Elem.passes, ih, List.filter_cons] <;> ring

theorem basisElems_op (θ : ℝ) (ops : List POp) (ψ : Vec) : unitaries phDoc (basisElems θ ops) ψ = basisOp θ ops ψ := by
  induction ops generalizing ψ with
  | nil => rfl
  | cons o ops ih =>
    obtain ⟨p, q⟩ := o
    cases p with
    | X =>
      have : unitaries phDoc (.one .h q :: basisElems θ ops) ψ =
        unitaries phDoc (basisElems θ ops) (matAt mH q ψ) := rfl
      simp only [basisElems, basisOp, basisM, Module.End.mul_apply]
      rw [this, ih]
    | Y =>
      have : unitaries phDoc (.one (.rx θ) q :: basisElems θ ops) ψ =
        unitaries phDoc (basisElems θ ops) (matAt (mRX θ) q ψ) := rfl
      simp only [basisElems, basisOp, basisM, Module.End.mul_apply]
      rw [this, ih]
    | Z => simp only [basisElems, basisOp, basisM, matAt_one, mul_one, ih]

/-- One term of the Hamiltonian. -/
theorem flEnergy_term {V : VqeOps} {δ : ℝ} (hV : VqeAccurate V δ) (hδ : 0 ≤ δ) (hδ4 : δ ≤ 1 / 4) {R : StateRunner}
    {n : ℕ} {Θ κ : ℝ} (hΘ : Real.pi / 2 ≤ Θ) (hR : RunsNear R n Θ κ) {gates : List Gate} {es : List Elem}
    (hd : GatesDenote n gates es) (hv : ∀ e ∈ es, e.Valid n) (hu : ∀ e ∈ es, e.IsUnitary)
    (hA : ∀ e ∈ es, ∀ x ∈ e.angles, |x| ≤ Θ) (t : PTerm) (hn : t.ops.Pairwise (fun a b => a.n ≠ b.n))
    (hb : ∀ o ∈ t.ops, o.n < n) {rnd : ℕ → ℝ} (hr : InUnit rnd) {k : ℕ} (hk : 2 ^ n + 3 ≤ k) {val val' : ℂ} {A : ℝ}
    (h1 : ‖val'‖ ≤ A) (h2 : ‖val - val'‖ ≤ ((1 + δ) ^ k - 1) * A) :
    ∃ c' d s, energyBasis t.ops ⟨n, gates⟩ = .ok c' ∧
      (flNonSampling V R c' (t.ops.map (fun o => (o.n : ℤ))) rnd).2 = .ok (d, rnd) ∧
      ‖val' + s‖ ≤ A + ‖t.coeff‖ * (1 + κ) ^ (2 * (passes es + xyCount t.ops)) ∧
      ‖flEnergySum V t.coeff d val - (val' + s)‖ ≤ ((1 + δ) ^ (k + 2 ^ t.ops.length) - 1) *
        (A + ‖t.coeff‖ * (1 + κ) ^ (2 * (passes es + xyCount t.ops))) ∧
      ‖s - t.coeff * ((-1) ^ yCount t.ops *
        expectation n (wordOp t.ops) (unitaries phDoc es (fun j => if j = 0 then 1 else 0)))‖ ≤
        ‖t.coeff‖ * ((1 + κ) ^ (2 * (passes es + xyCount t.ops)) - 1) := by
  set ψ := unitaries phDoc es (fun j => if j = 0 then 1 else 0) with hψ
  have hpi := Real.pi_pos
  have hd' : GatesDenote n (gates ++ basisGates (-(Real.pi / 2)) t.ops) (es ++ basisElems (-(Real.pi / 2)) t.ops) :=
    gatesDenote_append hd (basisElems_denote n _ t.ops)
  have hmem : ∀ e ∈ es ++ basisElems (-(Real.pi / 2)) t.ops,
      e.Valid n ∧ e.IsUnitary ∧ ∀ x ∈ e.angles, |x| ≤ Θ := by
    intro e he
    rcases List.mem_append.1 he with h | h
    · exact ⟨hv e h, hu e h, hA e h⟩
    · obtain ⟨o, ho, rfl | rfl⟩ := basisElems_mem h
      · exact ⟨hb o ho, by simp [Elem.IsUnitary], by simp [Elem.angles]⟩
      · refine ⟨hb o ho, by simp [Elem.IsUnitary], ?_⟩
        simp only [Elem.angles, List.mem_singleton, forall_eq]
        rw [abs_neg, abs_of_pos (by linarith)]
        exact hΘ
  obtain ⟨z, φ, hz, hrun, hgap⟩ := hR _ _ rnd hr hd' (fun e he => (hmem e he).1) (fun e he => (hmem e he).2.1)
    (fun e he => (hmem e he).2.2)
  have hN : passes (es ++ basisElems (-(Real.pi / 2)) t.ops) = passes es + xyCount t.ops := by
    rw [passes_append, basisElems_passes]
  have hone := unitaries_norm (es := es ++ basisElems (-(Real.pi / 2)) t.ops) (fun e he => (hmem e he).1) z hz
  rw [hN] at hgap
  have hsq := squares_near n φ _ _ hone hgap
  rw [sq_pow_passes] at hsq
  have hχ : unitaries phDoc (es ++ basisElems (-(Real.pi / 2)) t.ops) (fun j => if j = 0 then 1 else 0) =
      basisOp (-(Real.pi / 2)) t.ops ψ := by rw [unitaries_append, basisElems_op]
  simp only [hχ] at hone hsq
  set P := (1 + κ) ^ (2 * (passes es + xyCount t.ops)) with hP
  obtain ⟨d', e1, e2, e3, e4⟩ := C43_expect (amplitudes n φ) (t.ops.map POp.n)
  obtain ⟨d, f1, f2⟩ := flExpect_near hV hδ hδ4 _ _ e1
  have hlen : (amplitudes n φ).length = 2 ^ n := by simp [amplitudes]
  rw [hlen] at f2
  have hget : ∀ i ∈ Finset.range (2 ^ n), (amplitudes n φ).getD i 0 = φ i := by
    intro i hi
    have : i < 2 ^ n := by simpa using hi
    simp [amplitudes, this]
  have hsum : (d'.map Prod.snd).sum ≤ P := by
    rw [e4, ← sum_getD, hlen, Finset.sum_congr rfl (fun i hi => by rw [hget i hi])]
    have : ∑ i ∈ Finset.range (2 ^ n), ‖φ i‖ ^ 2 ≤
        ∑ i ∈ Finset.range (2 ^ n), (|‖φ i‖ ^ 2 - ‖z * basisOp (-(Real.pi / 2)) t.ops ψ i‖ ^ 2| +
          ‖z * basisOp (-(Real.pi / 2)) t.ops ψ i‖ ^ 2) :=
      Finset.sum_le_sum fun i _ => by
        have := le_abs_self (‖φ i‖ ^ 2 - ‖z * basisOp (-(Real.pi / 2)) t.ops ψ i‖ ^ 2)
        linarith
    rw [Finset.sum_add_distrib] at this
    rw [normSqN] at hone
    linarith
  obtain ⟨g1, g2⟩ := flEnergySum_near hV hδ t.coeff f2 (k := k) (by omega) h1 h2
  have hA0 : 0 ≤ A := (norm_nonneg _).trans h1
  have hc0 := norm_nonneg t.coeff
  have hle : A + ‖t.coeff‖ * (d'.map Prod.snd).sum ≤ A + ‖t.coeff‖ * P := by
    have := mul_le_mul_of_nonneg_left hsum hc0; linarith
  have hP0 : 0 ≤ P := by
    have hB := (Real.sqrt_nonneg _).trans hgap
    rw [hP, ← sq_pow_passes]; positivity
  rw [energySum_eq, expect_weighted (fun k => (-1 : ℂ) ^ k.sum) _ _ d' e2 e3] at g1 g2
  rw [hlen, Finset.sum_congr rfl (fun i hi => by rw [hget i hi])] at g1 g2
  refine ⟨_, d, t.coeff * ∑ i ∈ Finset.range (2 ^ n), (-1 : ℂ) ^ (bitsAt (t.ops.map POp.n) i).sum * ((‖φ i‖ ^ 2 : ℝ) : ℂ),
    energyBasis_ok t.ops ⟨n, gates⟩ hb, ?_, g1.trans hle, ?_, ?_⟩
  · simp only [List.map_map, Function.comp_def] at f1
    simp only [flNonSampling, hrun, bind, Except.bind, f1]
  · have hlen2 : d'.length ≤ 2 ^ t.ops.length := by
      have := outcomes_le e2 e3
      simpa using this
    refine g2.trans ?_
    have hAP : 0 ≤ A + ‖t.coeff‖ * P := by positivity
    refine le_trans ?_ (powErr_mono hδ (Nat.add_le_add_left hlen2 k) hAP)
    refine mul_le_mul_of_nonneg_left hle ?_
    have := one_le_pow₀ (show (1 : ℝ) ≤ 1 + δ by linarith) (n := k + d'.length)
    linarith
  · rw [← inner_basis t.ops hn hb ψ, ← inner_phase n z hz, ← mul_sub, norm_mul, ← Finset.sum_sub_distrib]
    refine mul_le_mul_of_nonneg_left (le_trans (norm_sum_le _ _) (le_trans (Finset.sum_le_sum fun i _ => ?_) hsq)) hc0
    rw [← mul_sub, norm_mul, norm_pow, norm_neg, norm_one, one_pow, one_mul, ← Complex.ofReal_sub, Complex.norm_real,
      Real.norm_eq_abs]

theorem flEnergyLoop_near {V : VqeOps} {δ : ℝ} (hV : VqeAccurate V δ) (hδ : 0 ≤ δ) (hδ4 : δ ≤ 1 / 4) {R : StateRunner}
    {n : ℕ} {Θ κ : ℝ} (hΘ : Real.pi / 2 ≤ Θ) (hR : RunsNear R n Θ κ) {gates : List Gate} {es : List Elem}
    (hd : GatesDenote n gates es) (hv : ∀ e ∈ es, e.Valid n) (hu : ∀ e ∈ es, e.IsUnitary)
    (hA : ∀ e ∈ es, ∀ x ∈ e.angles, |x| ≤ Θ) {rnd : ℕ → ℝ} (hr : InUnit rnd) : ∀ (ts : List PTerm),
    (∀ t ∈ ts, t.ops.Pairwise (fun a b => a.n ≠ b.n)) → (∀ t ∈ ts, ∀ o ∈ t.ops, o.n < n) →
    ∀ {k : ℕ} (hk : 2 ^ n + 3 ≤ k) {val val' : ℂ} {A : ℝ} (h1 : ‖val'‖ ≤ A) (h2 : ‖val - val'‖ ≤ ((1 + δ) ^ k - 1) * A),
    ∃ out s, flEnergyLoop V (flNonSampling V R) ⟨n, gates⟩ ts val rnd = .ok (out, rnd) ∧
      ‖out - (val' + s)‖ ≤ ((1 + δ) ^ (k + (ts.map (fun t => 2 ^ t.ops.length)).sum) - 1) *
        (A + (ts.map (fun t => ‖t.coeff‖ * (1 + κ) ^ (2 * (passes es + xyCount t.ops)))).sum) ∧
      ‖s - (ts.map (fun t => t.coeff * ((-1) ^ yCount t.ops *
        expectation n (wordOp t.ops) (unitaries phDoc es (fun j => if j = 0 then 1 else 0))))).sum‖ ≤
        (ts.map (fun t => ‖t.coeff‖ * ((1 + κ) ^ (2 * (passes es + xyCount t.ops)) - 1))).sum := by
  intro ts
  induction ts with
  | nil =>
    intro hn hb k hk val val' A h1 h2
    exact ⟨val, 0, rfl, by simpa using h2, by simp⟩
  | cons t ts ih =>
    intro hn hb k hk val val' A h1 h2
    obtain ⟨c', d, s, e1, e2, e3, e4, e5⟩ := flEnergy_term hV hδ hδ4 hΘ hR hd hv hu hA t (hn t (by simp))
      (hb t (by simp)) hr hk h1 h2
    obtain ⟨out, s', f1, f2, f3⟩ := ih (fun t ht => hn t (by simp [ht])) (fun t ht => hb t (by simp [ht]))
      (k := k + 2 ^ t.ops.length) (hk.trans (Nat.le_add_right _ _)) e3 e4
    refine ⟨out, s + s', ?_, ?_, ?_⟩
    · simp only [flEnergyLoop, e1, bind, Except.bind, e2, f1]
    · simp only [List.map_cons, List.sum_cons]
      rw [← add_assoc, ← add_assoc, ← add_assoc]
      exact f2
    · simp only [List.map_cons, List.sum_cons]
      have : ∀ a b c e : ℂ, a + b - (c + e) = (a - c) + (b - e) := fun a b c e => by ring
      rw [this]
      exact (norm_add_le _ _).trans (add_le_add e5 f3)

theorem sum_map_combine (ts : List PTerm) (a : ℝ) (f : PTerm → ℝ) :
    (a - 1) * (0 + (ts.map (fun t => ‖t.coeff‖ * f t)).sum) + (ts.map (fun t => ‖t.coeff‖ * (f t - 1))).sum =
      (ts.map (fun t => ‖t.coeff‖ * (a * f t - 1))).sum := by
  induction ts with
  | nil => simp
  | cons t ts ih => simp only [List.map_cons, List.sum_cons, zero_add] at ih ⊢; rw [← ih]; ring

/-- C97. What `get_energy` with the exact sampler computes in floating point, compared with the expectation value of the
Hamiltonian in which every term is multiplied by `(-1)^(number of Y)`. -/
theorem C97_energy_signed (V : VqeOps) (δ : ℝ) (hV : VqeAccurate V δ) (hδ : 0 ≤ δ) (hδ4 : δ ≤ 1 / 4) (R : StateRunner)
    (n : ℕ) (Θ κ : ℝ) (hΘ : Real.pi / 2 ≤ Θ) (hR : RunsNear R n Θ κ) (H : PExpr)
    (hn : ∀ t ∈ H.terms, t.ops.Pairwise (fun a b => a.n ≠ b.n)) (hb : ∀ t ∈ H.terms, ∀ o ∈ t.ops, o.n < n)
    (gates : List Gate) (es : List Elem) (hd : GatesDenote n gates es) (hv : ∀ e ∈ es, e.Valid n)
    (hu : ∀ e ∈ es, e.IsUnitary) (hA : ∀ e ∈ es, ∀ x ∈ e.angles, |x| ≤ Θ) (rnd : ℕ → ℝ) (hr : InUnit rnd) :
    ∃ E, flGetEnergy V H ⟨n, gates⟩ (flNonSampling V R) rnd = .ok (E, rnd) ∧
      |E - (expectation n (H.terms.map (fun t => ((-1 : ℂ) ^ yCount t.ops) • termOp t)).sum
        (unitaries phDoc es (fun j => if j = 0 then 1 else 0))).re| ≤ energyErr δ κ n (passes es) H := by
  obtain ⟨out, s, h1, h2, h3⟩ := flEnergyLoop_near hV hδ hδ4 hΘ hR hd hv hu hA hr H.terms hn hb (le_refl (2 ^ n + 3))
    (val := 0) (val' := 0) (A := 0) (by simp) (by simp)
  refine ⟨out.re, by simp only [flGetEnergy, h1, bind, Except.bind], ?_⟩
  rw [expectation_sum, List.map_map]
  have e : H.terms.map ((fun A => expectation n A (unitaries phDoc es (fun j => if j = 0 then 1 else 0))) ∘
      (fun t : PTerm => ((-1 : ℂ) ^ yCount t.ops) • termOp t)) =
      H.terms.map (fun t => t.coeff * ((-1) ^ yCount t.ops *
        expectation n (wordOp t.ops) (unitaries phDoc es (fun j => if j = 0 then 1 else 0)))) := by
    refine List.map_congr_left (fun t _ => ?_)
    simp only [Function.comp_apply, expectation_smul, termOp]; ring
  rw [e, ← Complex.sub_re]
  refine (Complex.abs_re_le_norm _).trans ?_
  have : ∀ a b c : ℂ, a - c = (a - (0 + b)) + (b - c) := fun a b c => by ring
  rw [this out s]
  refine (norm_add_le _ _).trans ((add_le_add h2 h3).trans (le_of_eq ?_))
  rw [sum_map_combine]
  rfl

/-- C97, partial: `get_energy` with the exact sampler in floating point differs from the real part of `⟨ψ|H|ψ⟩`, `ψ` being
the documented state, by at most `energyErr`, for every Hamiltonian whose terms have an even number of `Y` and mention each
qubit at most once, and every circuit of unitary gates. Missing: an odd number of `Y`, for which the term enters with the
wrong sign (`C97_energy_signed`; C44). -/
theorem C97_energy_partial (V : VqeOps) (δ : ℝ) (hV : VqeAccurate V δ) (hδ : 0 ≤ δ) (hδ4 : δ ≤ 1 / 4) (R : StateRunner)
    (n : ℕ) (Θ κ : ℝ) (hΘ : Real.pi / 2 ≤ Θ) (hR : RunsNear R n Θ κ) (H : PExpr)
    (hn : ∀ t ∈ H.terms, t.ops.Pairwise (fun a b => a.n ≠ b.n)) (hb : ∀ t ∈ H.terms, ∀ o ∈ t.ops, o.n < n)
    (hy : ∀ t ∈ H.terms, Even (yCount t.ops)) (gates : List Gate) (es : List Elem) (hd : GatesDenote n gates es)
    (hv : ∀ e ∈ es, e.Valid n) (hu : ∀ e ∈ es, e.IsUnitary) (hA : ∀ e ∈ es, ∀ x ∈ e.angles, |x| ≤ Θ) (rnd : ℕ → ℝ)
    (hr : InUnit rnd) :
    ∃ E, flGetEnergy V H ⟨n, gates⟩ (flNonSampling V R) rnd = .ok (E, rnd) ∧
      |E - (expectation n (exprOp H) (unitaries phDoc es (fun j => if j = 0 then 1 else 0))).re| ≤
        energyErr δ κ n (passes es) H := by
  obtain ⟨E, h1, h2⟩ := C97_energy_signed V δ hV hδ hδ4 R n Θ κ hΘ hR H hn hb gates es hd hv hu hA rnd hr
  refine ⟨E, h1, ?_⟩
  have e : H.terms.map (fun t => ((-1 : ℂ) ^ yCount t.ops) • termOp t) = H.terms.map termOp :=
    List.map_congr_left (fun t ht => by rw [(hy t ht).neg_one_pow, one_smul])
  rw [e] at h2
  exact h2

/-- The Bell state and `X[0]*X[1] + 2*Z[0]*Z[1] + Y[0]*Y[1]` in double precision, on both backends: the hypotheses hold,
and the energy is 2 up to an error below 10⁻¹¹. -/
example (fl : ℝ → ℝ) (hfl : RoundsTo fl (1 / 2 ^ 53)) (rnd : ℕ → ℝ) (hr : InUnit rnd) (R : StateRunner)
    (hR : R = flNpStatevector (FloatOps.rounded fl Real.cos Real.sin) ∨
      R = flNbStatevector (NbFloat.source (FloatOps.rounded fl Real.cos Real.sin))) :
    ∃ E, flGetEnergy (VqeOps.rounded fl)
        ⟨[⟨[⟨.X, 0⟩, ⟨.X, 1⟩], 1⟩, ⟨[⟨.Z, 0⟩, ⟨.Z, 1⟩], 2⟩, ⟨[⟨.Y, 0⟩, ⟨.Y, 1⟩], 1⟩]⟩ ⟨2, [on1 .h 0, on2 .cx 0 1]⟩
        (flNonSampling (VqeOps.rounded fl) R) rnd = .ok (E, rnd) ∧ |E - 2| ≤ 1 / 10 ^ 11 := by
  have hpi : Real.pi / 2 ≤ 2 := by have := Real.pi_le_four; linarith
  have hF := C89_doubles fl Real.cos Real.sin (1 / 2 ^ 53) 2 (by norm_num) (by norm_num) hfl (by simp) (by simp)
  have hκ : passErr (4 * (1 / 2 ^ 53)) 2 ≤ 1 / 2 := by norm_num [passErr]
  have hRn : RunsNear R 2 2 (passErr (4 * (1 / 2 ^ 53)) 2) := by
    rcases hR with rfl | rfl
    · exact C97_numpy_runs _ 2 _ _ _ hF hpi hκ
    · exact C97_numba_runs _ 2 (by norm_num) _ _ _ (C91_source _ 2 (by norm_num) _ _ _ hF hpi hκ) hpi hκ
  have hd : GatesDenote 2 [on1 .h 0, on2 .cx 0 1] [.one .h 0, .two .cx 0 1] :=
    ⟨_, _, gateDenotes_on1 2 .h 0, ⟨_, _, gateDenotes_on2 2 .cx 0 1 (by norm_num), rfl, rfl⟩, rfl⟩
  have hv : ∀ e ∈ ([.one .h 0, .two .cx 0 1] : List Elem), e.Valid 2 ∧ e.IsUnitary := by simp [Elem.Valid, Elem.IsUnitary]
  obtain ⟨E, h1, h2⟩ := C97_energy_partial (VqeOps.rounded fl) (4 * (1 / 2 ^ 53))
    (C97_doubles fl _ (by norm_num) (by norm_num) hfl) (by norm_num) (by norm_num) R 2 2 _ hpi hRn
    ⟨[⟨[⟨.X, 0⟩, ⟨.X, 1⟩], 1⟩, ⟨[⟨.Z, 0⟩, ⟨.Z, 1⟩], 2⟩, ⟨[⟨.Y, 0⟩, ⟨.Y, 1⟩], 1⟩]⟩ (by simp) (by simp) (by simp [yCount])
    _ _ hd (fun e he => (hv e he).1) (fun e he => (hv e he).2) (by simp [Elem.angles]) rnd hr
  refine ⟨E, h1, ?_⟩
  have hx := C44_energy_partial ⟨[⟨[⟨.X, 0⟩, ⟨.X, 1⟩], 1⟩, ⟨[⟨.Z, 0⟩, ⟨.Z, 1⟩], 2⟩, ⟨[⟨.Y, 0⟩, ⟨.Y, 1⟩], 1⟩]⟩ (by simp)
    ⟨2, [on1 .h 0, on2 .cx 0 1]⟩ (by simp) (by simp [yCount]) _ hd hv rnd
  rw [bell_energy rnd] at hx
  simp only [Except.ok.injEq, Prod.mk.injEq, and_true] at hx
  rw [← hx] at h2
  refine h2.trans ?_
  have x1 : xyCount [⟨.X, 0⟩, ⟨.X, 1⟩] = 2 := rfl
  have x2 : xyCount [⟨.Z, 0⟩, ⟨.Z, 1⟩] = 0 := rfl
  have x3 : xyCount [⟨.Y, 0⟩, ⟨.Y, 1⟩] = 2 := rfl
  have x4 : passes [.one .h 0, .two .cx 0 1] = 2 := rfl
  norm_num [energyErr, energyDepth, passErr, x1, x2, x3, x4]

end

end Blueqat
