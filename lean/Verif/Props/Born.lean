import Verif.BornLemmas
import Verif.Props.Numba
import Mathlib.Probability.StrongLaw

/-!
# C83: shots follow the Born rule
-/

set_option linter.unusedSimpArgs false
set_option linter.unusedVariables false

namespace Blueqat

open Spec MeasureTheory ProbabilityTheory Filter

noncomputable section

/-! ## Successive shots -/

/-- The classical bits of one shot. -/
def outcome (n : ℕ) (es : List Elem) (r : ℕ → ℝ) : String := bitString n (steps phSim n es (initState r)).creg

/-- The random numbers left by one shot. -/
def leave (n : ℕ) (es : List Elem) (r : ℕ → ℝ) : ℕ → ℝ := (steps phSim n es (initState r)).rnd

/-- How many random numbers the operations draw. -/
def draws : List Elem → ℕ
  | [] => 0
  | .meas _ :: es => draws es + 1
  | .reset _ :: es => draws es + 1
  | _ :: es => draws es

theorem steps_rnd (ph : ℝ → ℂ) (n : ℕ) (es : List Elem) (s : MState) : (steps ph n es s).rnd = shift^[draws es] s.rnd := by
  induction es generalizing s with
  | nil => rfl
  | cons e es ih =>
    have h : steps ph n (e :: es) s = steps ph n es (e.step ph n s) := rfl
    rw [h, ih]
    cases e with
    | meas t => simp only [draws, Elem.step]; split_ifs <;> rfl
    | reset t => simp only [draws, Elem.step]; split_ifs <;> rfl
    | _ => rfl

theorem shift_preserving : MeasurePreserving shift randoms randoms := by
  refine ⟨measurable_shift, Measure.ext fun A hA => ?_⟩
  rw [Measure.map_apply measurable_shift hA]
  have := randoms_first (P := Set.univ) .univ hA
  simp only [Set.mem_univ, true_and, measure_univ, one_mul] at this
  exact this

theorem leave_preserving (n : ℕ) (es : List Elem) : MeasurePreserving (leave n es) randoms randoms := by
  have : leave n es = shift^[draws es] := funext fun r => steps_rnd phSim n es _
  rw [this]
  exact shift_preserving.iterate _

theorem normSqN_zeroState (n : ℕ) : normSqN n (fun i => if i = 0 then 1 else 0) = 1 := by
  rw [normSqN, Finset.sum_eq_single 0]
  · simp
  · intro i _ hi; simp [hi]
  · intro h; exact absurd (Finset.mem_range.2 (by positivity)) h

/-- The outcome of a shot is independent of everything that depends on the random numbers it leaves. -/
theorem outcome_law {n : ℕ} {es : List Elem} (hv : ∀ e ∈ es, e.Valid n) (key : String) {A : Set (ℕ → ℝ)}
    (hA : MeasurableSet A) :
    randoms ({r | outcome n es r = key} ∩ leave n es ⁻¹' A) = ENNReal.ofReal (bornShot n es key) * randoms A :=
  shotEvent_law hv _ (normSqN_zeroState n) _ key hA

theorem outcome_prob {n : ℕ} {es : List Elem} (hv : ∀ e ∈ es, e.Valid n) (key : String) :
    randoms {r | outcome n es r = key} = ENNReal.ofReal (bornShot n es key) := by
  have := outcome_law hv key (A := Set.univ) .univ
  simpa using this

theorem outcome_measurable (n : ℕ) (es : List Elem) (key : String) : MeasurableSet {r | outcome n es r = key} := by
  have := measurableSet_shotEvent n es (fun i => if i = 0 then 1 else 0) (fun _ => false) key (A := Set.univ) .univ
  have e : {r | outcome n es r = key} = shotEvent n es (fun i => if i = 0 then 1 else 0) (fun _ => false) key Set.univ := by
    ext r; simp [shotEvent, outcome, initState]
  rw [e]; exact this

/-- The shots are the outcomes for the random numbers left by the shots before. -/
theorem shotStates_eq (n : ℕ) (es : List Elem) (k : ℕ) (r : ℕ → ℝ) :
    (shotStates phSim n es k r).map (fun s => bitString n s.creg) =
      (List.range k).map fun j => outcome n es ((leave n es)^[j] r) := by
  induction k generalizing r with
  | zero => rfl
  | succ k ih =>
    rw [shotStates, List.map_cons, ih, List.range_succ_eq_map, List.map_cons, List.map_map]
    rfl

/-- Shot `j` gives the bits `key`. -/
def hit (n : ℕ) (es : List Elem) (key : String) (j : ℕ) : Set (ℕ → ℝ) := {r | outcome n es ((leave n es)^[j] r) = key}

theorem hit_eq (n : ℕ) (es : List Elem) (key : String) (j : ℕ) :
    hit n es key j = (leave n es)^[j] ⁻¹' {r | outcome n es r = key} := rfl

theorem hit_measurable (n : ℕ) (es : List Elem) (key : String) (j : ℕ) : MeasurableSet (hit n es key j) :=
  ((leave_preserving n es).iterate j).measurable (outcome_measurable n es key)

theorem hit_prob {n : ℕ} {es : List Elem} (hv : ∀ e ∈ es, e.Valid n) (key : String) (j : ℕ) :
    randoms (hit n es key j) = ENNReal.ofReal (bornShot n es key) := by
  rw [hit_eq, ((leave_preserving n es).iterate j).measure_preimage (outcome_measurable n es key).nullMeasurableSet,
    outcome_prob hv]

theorem hit_inter {n : ℕ} {es : List Elem} (hv : ∀ e ∈ es, e.Valid n) (key key' : String) (i j : ℕ) (h : i < j) :
    randoms (hit n es key i ∩ hit n es key' j) = randoms (hit n es key i) * randoms (hit n es key' j) := by
  obtain ⟨d, rfl⟩ : ∃ d, j = i + (d + 1) := ⟨j - i - 1, by omega⟩
  have e : hit n es key i ∩ hit n es key' (i + (d + 1)) =
      (leave n es)^[i] ⁻¹' ({r | outcome n es r = key} ∩ leave n es ⁻¹' (hit n es key' d)) := by
    ext r
    simp only [hit, Set.mem_inter_iff, Set.mem_setOf_eq, Set.mem_preimage]
    rw [← Function.iterate_succ_apply, ← Function.iterate_add_apply, add_comm i]
  have hm : MeasurableSet ({r | outcome n es r = key} ∩ leave n es ⁻¹' (hit n es key' d)) :=
    (outcome_measurable n es key).inter ((leave_preserving n es).measurable (hit_measurable n es key' d))
  rw [e, ((leave_preserving n es).iterate i).measure_preimage hm.nullMeasurableSet, outcome_law hv key (hit_measurable ..),
    hit_prob hv, hit_prob hv, hit_prob hv]

/-- 1 if shot `j` gives the bits `key`, else 0. -/
def hitX (n : ℕ) (es : List Elem) (key : String) (j : ℕ) : (ℕ → ℝ) → ℝ := (hit n es key j).indicator fun _ => 1

theorem hitX_measurable (n : ℕ) (es : List Elem) (key : String) (j : ℕ) : Measurable (hitX n es key j) :=
  measurable_const.indicator (hit_measurable ..)

theorem hitX_indep {n : ℕ} {es : List Elem} (hv : ∀ e ∈ es, e.Valid n) (key : String) (i j : ℕ) (h : i ≠ j) :
    IndepFun (hitX n es key i) (hitX n es key j) randoms := by
  have key' : ∀ i j, i < j → IndepFun (hitX n es key i) (hitX n es key j) randoms := by
    intro i j h
    have hs : IndepSet (hit n es key i) (hit n es key j) randoms :=
      (indepSet_iff_measure_inter_eq_mul (hit_measurable ..) (hit_measurable ..) randoms).2 (hit_inter hv key key i j h)
    refine indep_of_indep_of_le hs ?_ ?_
    · exact (measurable_const.indicator (MeasurableSpace.measurableSet_generateFrom (Set.mem_singleton _))).comap_le
    · exact (measurable_const.indicator (MeasurableSpace.measurableSet_generateFrom (Set.mem_singleton _))).comap_le
  rcases lt_or_gt_of_ne h with h | h
  · exact key' i j h
  · exact (key' j i h).symm

theorem bornShot_nonneg {n : ℕ} {es : List Elem} (hv : ∀ e ∈ es, e.Valid n) (key : String) : 0 ≤ bornShot n es key :=
  (born_bounds hv _ _ _).1

theorem hitX_mean {n : ℕ} {es : List Elem} (hv : ∀ e ∈ es, e.Valid n) (key : String) (j : ℕ) :
    ∫ r, hitX n es key j r ∂randoms = bornShot n es key := by
  rw [hitX, integral_indicator_const _ (hit_measurable ..), measureReal_def, hit_prob hv,
    ENNReal.toReal_ofReal (bornShot_nonneg hv key)]
  simp

theorem hitX_ident (n : ℕ) (es : List Elem) (key : String) (j : ℕ) :
    IdentDistrib (hitX n es key j) (hitX n es key 0) randoms randoms := by
  refine ⟨(hitX_measurable ..).aemeasurable, (hitX_measurable ..).aemeasurable, ?_⟩
  have e : hitX n es key j = hitX n es key 0 ∘ (leave n es)^[j] := rfl
  rw [e, ← Measure.map_map (hitX_measurable ..) ((leave_preserving n es).iterate j).measurable,
    ((leave_preserving n es).iterate j).map_eq]

theorem hitX_integrable (n : ℕ) (es : List Elem) (key : String) (j : ℕ) : Integrable (hitX n es key j) randoms :=
  (integrable_const 1).indicator (hit_measurable ..)

theorem countP_eq_sum (n : ℕ) (es : List Elem) (key : String) (k : ℕ) (r : ℕ → ℝ) :
    ((shotStates phSim n es k r).countP (fun s => decide (bitString n s.creg = key)) : ℝ) =
      ∑ j ∈ Finset.range k, hitX n es key j r := by
  have h1 : (shotStates phSim n es k r).countP (fun s => decide (bitString n s.creg = key)) =
      ((shotStates phSim n es k r).map fun s => bitString n s.creg).countP (fun b => decide (b = key)) := by
    rw [List.countP_map]; congr
  rw [h1, shotStates_eq, List.countP_map]
  clear h1
  induction k with
  | zero => simp
  | succ k ih =>
    rw [List.range_succ, List.countP_append, Nat.cast_add, ih, Finset.sum_range_succ]
    congr 1
    by_cases h : outcome n es ((leave n es)^[k] r) = key <;> simp [hitX, hit, Set.indicator, h]

theorem randoms_inUnit : ∀ᵐ r ∂randoms, InUnit r := by
  refine ae_all_iff.2 fun k => ?_
  have h := measurePreserving_eval_infinitePi (fun _ : ℕ => uniform) k
  have hu : ∀ᵐ x ∂uniform, 0 ≤ x ∧ x < 1 := by
    rw [uniform, ae_restrict_iff' measurableSet_Ico]
    exact Filter.Eventually.of_forall fun x hx => hx
  exact h.quasiMeasurePreserving.ae hu

/-! ## C83 -/

/-- How often the bits `key` occur in the result of a run with shots (0 if the run does not return a counter). -/
def countIn (res : Except PyErr (NpVal × (ℕ → ℝ))) (key : String) : ℕ :=
  match res with
  | .ok (.shots c, _) => countOf c key
  | _ => 0

/-- With random numbers from `[0, 1)` the counter of a run counts the shots with the bits `key`. -/
theorem countIn_eq {n : ℕ} (hn : 0 < n) {gates : List Gate} {es : List Elem} (hd : GatesDenote n gates es)
    (hv : ∀ e ∈ es, e.Valid n) (ig : Bool) (key : String) (r : ℕ → ℝ) (hr : InUnit r) (k : ℕ) :
    (countIn (freshRun n gates ⟨some k, none, ig, r⟩) key : ℝ) = ∑ j ∈ Finset.range k, hitX n es key j r := by
  obtain ⟨c, rest, h1, h2⟩ := C16_counts_exact n hn gates es hd hv k ig r hr
  rw [h1, ← countP_eq_sum, ← h2]
  rfl

/-- C83. One shot gives the bits `key` with the probability of the Born rule. -/
theorem C83_shot (n : ℕ) (hn : 0 < n) (gates : List Gate) (es : List Elem) (hd : GatesDenote n gates es)
    (hv : ∀ e ∈ es, e.Valid n) (ig : Bool) (key : String) :
    randoms {r | countIn (freshRun n gates ⟨some 1, none, ig, r⟩) key = 1} = ENNReal.ofReal (bornShot n es key) := by
  rw [← hit_prob hv key 0]
  refine measure_congr ?_
  filter_upwards [randoms_inUnit] with r hr
  have h := countIn_eq hn hd hv ig key r hr 1
  rw [Finset.sum_range_one] at h
  refine propext ?_
  show countIn (freshRun n gates ⟨some 1, none, ig, r⟩) key = 1 ↔ r ∈ hit n es key 0
  by_cases hm : r ∈ hit n es key 0
  · have : hitX n es key 0 r = 1 := by simp [hitX, hm]
    rw [this] at h
    exact iff_of_true (by exact_mod_cast h) hm
  · have : hitX n es key 0 r = 0 := by simp [hitX, hm]
    rw [this] at h
    refine iff_of_false (fun h1 => ?_) hm
    have h0 : countIn (freshRun n gates ⟨some 1, none, ig, r⟩) key = 0 := by exact_mod_cast h
    omega

/-- C83. The mean of the count of `key` in `k` shots is `k` times the probability. -/
theorem C83_mean (n : ℕ) (hn : 0 < n) (gates : List Gate) (es : List Elem) (hd : GatesDenote n gates es)
    (hv : ∀ e ∈ es, e.Valid n) (ig : Bool) (key : String) (k : ℕ) :
    ∫ r, (countIn (freshRun n gates ⟨some k, none, ig, r⟩) key : ℝ) ∂randoms = k * bornShot n es key := by
  have h : (fun r => (countIn (freshRun n gates ⟨some k, none, ig, r⟩) key : ℝ)) =ᵐ[randoms]
      fun r => ∑ j ∈ Finset.range k, hitX n es key j r := by
    filter_upwards [randoms_inUnit] with r hr
    exact countIn_eq hn hd hv ig key r hr k
  rw [integral_congr_ae h, integral_finset_sum _ fun j _ => hitX_integrable n es key j]
  simp [hitX_mean hv]

/-- C83. Its variance is `k p (1 - p)`: different shots are independent. -/
theorem C83_variance (n : ℕ) (hn : 0 < n) (gates : List Gate) (es : List Elem) (hd : GatesDenote n gates es)
    (hv : ∀ e ∈ es, e.Valid n) (ig : Bool) (key : String) (k : ℕ) :
    variance (fun r => (countIn (freshRun n gates ⟨some k, none, ig, r⟩) key : ℝ)) randoms =
      k * (bornShot n es key * (1 - bornShot n es key)) := by
  have h : (fun r => (countIn (freshRun n gates ⟨some k, none, ig, r⟩) key : ℝ)) =ᵐ[randoms]
      ∑ j ∈ Finset.range k, hitX n es key j := by
    filter_upwards [randoms_inUnit] with r hr
    rw [countIn_eq hn hd hv ig key r hr k, Finset.sum_apply]
  have hL : ∀ j, MemLp (hitX n es key j) 2 randoms := fun j =>
    (memLp_const 1).indicator (hit_measurable ..)
  rw [variance_congr h, IndepFun.variance_sum (fun j _ => hL j) fun i _ j _ hij => hitX_indep hv key i j hij]
  have hvar : ∀ j, variance (hitX n es key j) randoms = bornShot n es key * (1 - bornShot n es key) := by
    intro j
    have hsq : (hitX n es key j) ^ 2 = hitX n es key j := by
      funext r
      by_cases hr : r ∈ hit n es key j <;> simp [hitX, hr]
    rw [variance_eq_sub (hL j), hsq, hitX_mean hv]
    ring
  simp [hvar]

/-- C83. With more and more shots the relative frequency of `key` tends to the probability of the Born rule, almost
surely. -/
theorem C83_frequency (n : ℕ) (hn : 0 < n) (gates : List Gate) (es : List Elem) (hd : GatesDenote n gates es)
    (hv : ∀ e ∈ es, e.Valid n) (ig : Bool) (key : String) :
    ∀ᵐ r ∂randoms, Tendsto (fun k : ℕ => (countIn (freshRun n gates ⟨some k, none, ig, r⟩) key : ℝ) / k) atTop
      (nhds (bornShot n es key)) := by
  have h := strong_law_ae_real (hitX n es key) (hitX_integrable n es key 0) (fun i j hij => hitX_indep hv key i j hij)
    (hitX_ident n es key)
  rw [hitX_mean hv] at h
  filter_upwards [h, randoms_inUnit] with r h1 h2
  refine h1.congr fun k => ?_
  rw [countIn_eq hn hd hv ig key r h2]

/-- C83. The numba backend returns the same counts, for almost all random numbers. -/
theorem C83_numba (n : ℕ) (hn : n ≤ 64) (gates : List Gate) (es : List Elem) (hd : GatesDenote n gates es)
    (hv : ∀ e ∈ es, e.Valid n) (enableCache ig : Bool) (key : String) :
    ∀ᵐ r ∂randoms, ∀ k : ℕ, countIn (nbRunArgs n gates NbBackend.new ⟨some k, none, enableCache, ig, r, none⟩).2 key =
      countIn (freshRun n gates ⟨some k, none, ig, r⟩) key := by
  filter_upwards [randoms_inUnit] with r hr k
  rw [C23_numba_eq_numpy n hn gates es hd hv _ rfl (.inl hr)]

theorem born_measures (n : ℕ) (L : List ℕ) (ψ : Vec) (creg : ℕ → Bool) (key : String) :
    born n (L.map .meas) ψ creg key = ∑ i ∈ Finset.range (2 ^ n),
      if bitString n (fun q => if q ∈ L then i.testBit q else creg q) = key then ‖ψ i‖ ^ 2 else 0 := by
  induction L generalizing ψ creg with
  | nil =>
    simp only [List.map_nil, born, List.not_mem_nil, if_false]
    split_ifs <;> simp [normSqN]
  | cons t L ih =>
    rw [List.map_cons, born, ih, ih, ← Finset.sum_add_distrib]
    refine Finset.sum_congr rfl fun i _ => ?_
    have hc : ∀ b, i.testBit t = b → (fun q => if q ∈ L then i.testBit q else Function.update creg t b q) =
        fun q => if q ∈ t :: L then i.testBit q else creg q := by
      rintro b rfl
      funext q
      by_cases h1 : q ∈ L
      · simp [h1]
      · by_cases h2 : q = t
        · subst h2; simp [h1]
        · simp [h1, h2]
    cases hb : i.testBit t
    · rw [hc false hb]; simp [project, hb]
    · rw [hc true hb]; simp [project, hb]

theorem born_unitaries (n : ℕ) (us es : List Elem) (hu : ∀ e ∈ us, e.IsUnitary) (ψ : Vec) (creg : ℕ → Bool) (key : String) :
    born n (us ++ es) ψ creg key = born n es (unitaries phDoc us ψ) creg key := by
  induction us generalizing ψ with
  | nil => rfl
  | cons u us ih =>
    rw [List.cons_append, born_unitary (hu u (by simp)), ih fun e he => hu e (by simp [he])]
    rfl

/-- C83. Gates followed by measurements of the qubits in `L`: the probability of a result is the sum of the squared
amplitudes of the basis states that have these bits on `L` (the other classical bits stay 0). -/
theorem C83_terminal (n : ℕ) (us : List Elem) (hu : ∀ e ∈ us, e.IsUnitary) (L : List ℕ) (key : String) :
    bornShot n (us ++ L.map .meas) key = ∑ i ∈ Finset.range (2 ^ n),
      if bitString n (fun q => decide (q ∈ L) && i.testBit q) = key then
        ‖unitaries phDoc us (fun j => if j = 0 then 1 else 0) i‖ ^ 2 else 0 := by
  rw [bornShot, born_unitaries n us _ hu, born_measures]
  refine Finset.sum_congr rfl fun i _ => ?_
  have : (fun q => if q ∈ L then i.testBit q else false) = fun q => decide (q ∈ L) && i.testBit q := by
    funext q; by_cases h : q ∈ L <;> simp [h]
  rw [this]

/-- `Circuit(1).h[0].m[0]` gives `1` with probability 1/2. -/
example : GatesDenote 1 [.g1 .h (.one (.int 0)), .measure (.one (.int 0))] [.one .h 0, .meas 0] ∧
    (∀ e ∈ [Elem.one .h 0, .meas 0], e.Valid 1) ∧ bornShot 1 [.one .h 0, .meas 0] "1" = 1 / 2 := by
  have hb : bornShot 1 [.one .h 0, .meas 0] "1" = 1 / 2 := by
    rw [show [Elem.one .h 0, .meas 0] = [Elem.one .h 0] ++ [0].map Elem.meas from rfl,
      C83_terminal 1 [.one .h 0] (by simp [Elem.IsUnitary]) [0]]
    have h0 : bitString 1 (fun q => decide (q ∈ [0]) && (0 : ℕ).testBit q) = "0" := by decide
    have h1 : bitString 1 (fun q => decide (q ∈ [0]) && (1 : ℕ).testBit q) = "1" := by decide
    rw [show 2 ^ 1 = 2 from rfl, Finset.sum_range_succ, Finset.sum_range_one, h0, h1]
    simp [unitaries, Elem.unitary, matrix1, app, mH, flipBit]
  refine ⟨⟨[.one .h 0], [.meas 0], ⟨[0], ?_, rfl⟩, ⟨[.meas 0], [], ⟨[0], ?_, rfl⟩, rfl, rfl⟩, rfl⟩, by simp [Elem.Valid], hb⟩
  · rw [← slicing_eq_iff]; rfl
  · rw [← slicing_eq_iff]; rfl

end

end Blueqat
