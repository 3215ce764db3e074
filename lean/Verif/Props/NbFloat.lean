import Verif.NbFloatShots
import Verif.NbFloatSource
import Verif.Props.NpFloat
import Verif.Props.Numba

/-!
# C91, C92: the numba simulator in floating point

`flNbRunArgs K` is `NumbaBackend.run` with kernels that compute what `K` says. `NbAccurate K n ε ν Θ`
(Verif/Spec/RoundingNumba.lean) says how far their results may be from those of the source.
-/

set_option linter.unusedSimpArgs false
set_option linter.unusedVariables false

namespace Blueqat

open Spec

noncomputable section

/-! ## What the hypotheses mean -/

/-- If the kernels are computed in the order of the source with operations of relative errors of at most `ε`, they are
accurate to `ε`. -/
theorem C91_source (F : FloatOps) (n : ℕ) (hn : n ≤ 64) (ε ν Θ : ℝ) (hF : Accurate F n ε ν) (hΘ : Real.pi / 2 ≤ Θ)
    (hκ : passErr ε Θ ≤ 1 / 2) : NbAccurate (NbFloat.source F) n ε ((1 + ε) ^ (2 ^ n + 1) - 1) Θ :=
  source_accurate hn hF (small_of hF hΘ hκ) hΘ

/-- Double precision, angles up to 2: the hypotheses hold and kernels of one pass have errors below 10⁻¹³. -/
example : (∀ fl, RoundsTo fl (1 / 2 ^ 53) → Accurate (FloatOps.rounded fl Real.cos Real.sin) 2 (4 * (1 / 2 ^ 53))
      ((1 + 1 / 2 ^ 53) ^ (2 * 2 ^ 2 + 7) - 1)) ∧ Real.pi / 2 ≤ 2 ∧ passErr (4 * (1 / 2 ^ 53)) 2 ≤ 1 / 2 ∧
    passErr (4 * (1 / 2 ^ 53)) 2 ≤ 1 / 10 ^ 13 := by
  refine ⟨fun fl hfl => C89_doubles fl _ _ _ 2 (by norm_num) (by norm_num) hfl (by simp) (by simp), ?_, ?_, ?_⟩
  · have := Real.pi_le_four; linarith
  · norm_num [passErr]
  · norm_num [passErr]

theorem compiled_same {b : ℕ → ℕ → List Ins} (h : ∀ i0 i1, compiled (fun j _ => storeOf b j) b i0 i1 = b i0 i1) :
    compiled (fun j _ => storeOf b j) b = b := by
  funext i0 i1; exact h i0 i1

theorem compiled_body1 {k : G1} {b : ℕ → ℕ → List Ins} (h : nbBody1 k = some b) :
    compiled (NbFloat.exact.store (.one k)) b = b := by
  have e : NbFloat.exact.store (.one k) = fun j _ => storeOf b j := by funext j a t u; simp [NbFloat.exact, h, storeOf?]
  rw [e]
  cases k <;> simp only [nbBody1, Option.some.injEq, reduceCtorEq] at h <;> subst h <;> exact compiled_same fun i0 i1 => rfl

theorem compiled_body2 {k : G2} {b : ℕ → ℕ → List Ins} (h : nbBody2 k = some b) :
    compiled (NbFloat.exact.store (.two k)) b = b := by
  have e : NbFloat.exact.store (.two k) = fun j _ => storeOf b j := by funext j a t u; simp [NbFloat.exact, h, storeOf?]
  rw [e]
  cases k <;> simp only [nbBody2, Option.some.injEq, reduceCtorEq] at h <;> subst h <;> exact compiled_same fun i0 i1 => rfl

theorem compiled_body3 {k : G3} {b : ℕ → ℕ → List Ins} (h : nbBody3 k = some b) :
    compiled (NbFloat.exact.store (.three k)) b = b := by
  have e : NbFloat.exact.store (.three k) = fun j _ => storeOf b j := by funext j a t u; simp [NbFloat.exact, h, storeOf?]
  rw [e]
  cases k <;> simp only [nbBody3, Option.some.injEq, reduceCtorEq] at h <;> subst h <;> exact compiled_same fun i0 i1 => rfl

theorem flNbAction_exact (n : ℕ) : flNbAction .exact n = nbAction n := by
  funext g
  have hm : flNbMeasureBody .exact n = nbMeasureBody n := by
    funext t c
    simp only [flNbMeasureBody, nbMeasureBody]
    rw [show ∀ p, compiled (NbFloat.exact.store (.reduce0 p)) (insReduce0 (1 / √p : ℝ)) = insReduce0 (1 / √p : ℝ) from
        fun p => compiled_same fun _ _ => rfl,
      show ∀ p, compiled (NbFloat.exact.store (.reduce1 p)) (insReduce1 (1 / √(1 - p) : ℝ)) = insReduce1 (1 / √(1 - p) : ℝ) from
        fun p => compiled_same fun _ _ => rfl]
    rfl
  have hr : flNbResetBody .exact n = nbResetBody n := by
    funext t c
    simp only [flNbResetBody, nbResetBody]
    rw [show ∀ p, compiled (NbFloat.exact.store (.reduce0 p)) (insReduce0 (1 / √p : ℝ)) = insReduce0 (1 / √p : ℝ) from
        fun p => compiled_same fun _ _ => rfl,
      show ∀ p, compiled (NbFloat.exact.store (.reset1 p)) (insReset1 (1 / √(1 - p) : ℝ)) = insReset1 (1 / √(1 - p) : ℝ) from
        fun p => compiled_same fun _ _ => rfl]
    rfl
  cases g with
  | measure T => simp only [flNbAction, nbAction, hm]
  | reset T => simp only [flNbAction, nbAction, hr]
  | g1 k T =>
    simp only [flNbAction, nbAction, flNbArr, nbArr]
    cases hb : nbBody1 k with
    | none => rfl
    | some b => simp only [Option.map_some, compiled_body1 hb]
  | g2 k T =>
    simp only [flNbAction, nbAction, flNbArr, nbArr]
    cases hb : nbBody2 k with
    | none => rfl
    | some b => simp only [Option.map_some, compiled_body2 hb]
  | g3 k T =>
    simp only [flNbAction, nbAction, flNbArr, nbArr]
    cases hb : nbBody3 k with
    | none => rfl
    | some b => simp only [Option.map_some, compiled_body3 hb]

/-- In exact arithmetic, the run is that of the model the other properties are about. -/
theorem C91_exact (n : ℕ) (gates : List Gate) (be : NbBackend) (shots : Option ℤ) (returns : Option String)
    (enableCache : Bool) (rnd : ℕ → ℝ) (interrupt : Option ℕ) :
    flNbRunArgs .exact n gates be shots returns enableCache rnd interrupt =
      nbRunArgs n gates be ⟨shots, returns, enableCache, false, rnd, interrupt⟩ := by
  have hG : ∀ gs s, flNbGates .exact n gs s = nbGates n gs s := by
    intro gs
    induction gs with
    | nil => intro s; rfl
    | cons g gs ih =>
      intro s
      simp only [flNbGates, nbGates, nbRunGate, flNbAction_exact, ih]
      rfl
  have hS : ∀ k be ctx save fuse res, flNbShots .exact n gates k be ctx save fuse res = nbShots n gates k be ctx save fuse res := by
    intro k
    induction k with
    | zero => intro be ctx save fuse res; rfl
    | succ k ih =>
      intro be ctx save fuse res
      simp only [flNbShots, nbShots, hG, ih]
      cases nbPrepare n be.cache ctx with
      | error e => rfl
      | ok c =>
        simp only
        rcases nbGates n (gates.drop (be.cacheIdx + 1).toNat) ⟨c, save, be.cache, be.cacheIdx, fuse⟩ with ⟨b, e | c'⟩ <;> rfl
  simp only [flNbRunArgs, nbRunArgs, hS, Bool.false_eq_true, if_false]
  cases nbParse shots returns with
  | error e => rfl
  | ok p =>
    simp only
    rcases nbShots n gates p.1.toNat (if enableCache then be.clearIfInvalid n else ⟨none, -1⟩)
      ⟨List.replicate (2 ^ n) 0, [], rnd⟩ enableCache interrupt [] with ⟨b, e | ⟨c, r⟩⟩ <;> rfl

theorem touches_compiled (S : ℕ → ℕ → ℂ → ℂ → ℂ) (b : ℕ → ℕ → List Ins) (i0 i1 a : ℕ)
    (h : Touches (compiled S b i0 i1) a) : Touches (b i0 i1) a := by
  obtain ⟨i, hi, rfl⟩ := h
  simp only [compiled, List.mem_map] at hi
  obtain ⟨p, hp, rfl⟩ := hi
  refine ⟨p.1, ?_, by cases p.1 <;> rfl⟩
  obtain ⟨x, hx⟩ := p
  exact (List.mem_zipIdx' hp).2 ▸ List.getElem_mem _

/-- The loops are parallel (`prange`). Whatever values the compiled iterations write, every schedule gives the same
array. -/
theorem C91_parallel (n t : ℕ) (hn : n ≤ 64) (cs : List ℕ) (hd : (cs ++ [t]).Nodup) (hx : ∀ x ∈ cs ++ [t], x < n)
    (body : ℕ → ℕ → List Ins) (hb : GateBody body) (S : ℕ → ℕ → ℂ → ℂ → ℂ) (q q' : Arr) :
    (ParallelRun (iters1 (compiled S body) n t) q q' ↔ q' = runIters (iters1 (compiled S body) n t) q) ∧
    (ParallelRun (itersC (compiled S body) n cs t) q q' ↔ q' = runIters (itersC (compiled S body) n cs t) q) := by
  obtain ⟨F, G, hA⟩ := gateBody_acts hb
  have ht : ∀ i0 i1 a, Touches (compiled S body i0 i1) a → a = i0 ∨ a = i1 := fun i0 i1 a h =>
    hA.touch i0 i1 a (touches_compiled S body i0 i1 a h)
  have h1 : Apart (iters1 (compiled S body) n t) := by
    rw [iters1_eq _ (hx t (by simp)) hn]; exact (pairLoop1 (hx t (by simp)) hn).apart ht
  have h2 : Apart (itersC (compiled S body) n cs t) := by
    rw [itersC_eq _ hn hx hd (nodup_lt_length hd hx)]; exact (pairLoopC hn hx hd).apart ht
  exact ⟨⟨fun h => parallel_eq _ h1 q q' h, fun h => by rw [h]; exact parallel_exists _ q⟩,
    ⟨fun h => parallel_eq _ h2 q q' h, fun h => by rw [h]; exact parallel_exists _ q⟩⟩

/-- Two controls and a target of three qubits, and a body that is one. -/
example : ([2, 0] ++ [1]).Nodup ∧ (∀ x ∈ [2, 0] ++ [1], x < 3) ∧ GateBody insX :=
  ⟨by decide, by decide, .three .ccx _ rfl⟩

/-! ## Circuits without measurement -/

theorem nbSmall_of {K : NbFloat} {n : ℕ} {ε ν Θ : ℝ} (hK : NbAccurate K n ε ν Θ) (hΘ : Real.pi / 2 ≤ Θ)
    (hκ : passErr ε Θ ≤ 1 / 2) : Small ε Θ (ε + Θ * ε) := by
  have hpi := Real.pi_pos
  have h := (norm_nonneg _).trans (hK.one .x insX rfl (by simp [Elem.angles]) 0 1 2 0 (fun _ u => u) rfl 1 0)
  simp only [norm_one, norm_zero, add_zero, mul_one] at h
  have h0 : 0 ≤ ε := by
    by_contra hc
    push Not at hc
    have : 22 * (1 + Θ) * ε < 0 := mul_neg_of_pos_of_neg (by linarith) hc
    linarith
  refine ⟨h0, by linarith, rfl, ?_⟩
  rw [passErr] at hκ
  nlinarith

theorem cacheNear_append {ε Θ : ℝ} {n : ℕ} {gates : List Gate} {be : NpBackend} (h : CacheNear ε Θ n gates be)
    (more : List Gate) : CacheNear ε Θ n (gates ++ more) be := by
  obtain ⟨done, rest, fs, hg, h1, h2, h3, h4⟩ := h
  exact ⟨done, rest ++ more, fs, by rw [hg, List.append_assoc], h1, h2, h3, h4⟩

theorem flNbRun_near {K : NbFloat} {n : ℕ} (hn : n ≤ 64) {ε ν Θ : ℝ} (hK : NbAccurate K n ε ν Θ)
    (hΘ : Real.pi / 2 ≤ Θ) (hκ : passErr ε Θ ≤ 1 / 2) {gates : List Gate} {es : List Elem} (hd : GatesDenote n gates es)
    (hv : ∀ e ∈ es, e.Valid n) (hA : ∀ e ∈ es, ∀ x ∈ e.angles, |x| ≤ Θ) (k : ℕ) (be : NbBackend)
    (hbe : CacheNear ε Θ n gates ⟨be.cache, be.cacheIdx⟩) (save : Bool) {rnd : ℕ → ℝ} (hr : InUnit rnd)
    (hc : ShotsClear ε ν Θ n es (k + 1) rnd) :
    ∃ be' ctx res, flNbShots K n gates (k + 1) (if save then be.clearIfInvalid n else ⟨none, -1⟩)
        ⟨List.replicate (2 ^ n) 0, [], rnd⟩ save none [] = (be', .ok (ctx, res)) ∧
      CacheNear ε Θ n gates ⟨be'.cache, be'.cacheIdx⟩ ∧
      NbNear n ctx (steps phSim n es (initState (randomsAfter n es k rnd)))
        (errBound ε ν Θ n es (initState (randomsAfter n es k rnd)) 0) ∧
      (0 < n → ∀ key, countOf res key =
        (shotStates phSim n es (k + 1) rnd).countP (fun s => decide (bitString n s.creg = key))) := by
  have hbe' : CacheNear ε Θ n gates ⟨(if save then be.clearIfInvalid n else ⟨none, -1⟩ : NbBackend).cache,
      (if save then be.clearIfInvalid n else ⟨none, -1⟩ : NbBackend).cacheIdx⟩ := by
    cases save with
    | false => exact cacheNear_new ε Θ n gates
    | true =>
      simp only [if_true, NbBackend.clearIfInvalid]
      cases hq : be.cache with
      | none => exact cacheNear_new ε Θ n gates
      | some c =>
        simp only
        by_cases hl : c.length ≠ 2 ^ n
        · rw [if_pos hl]; exact cacheNear_new ε Θ n gates
        · rw [if_neg hl]; exact hbe
  obtain ⟨be', ctx, res, h1, h2, h3, h4⟩ := flNbShots_near hn hK hK.nu (nbSmall_of hK hΘ hκ) hΘ hd hv hA (k + 1)
    (if save then be.clearIfInvalid n else ⟨none, -1⟩) ⟨List.replicate (2 ^ n) 0, [], rnd⟩ save [] (by simp) hr hc hbe'
  refine ⟨be', ctx, res, h1, h2, h3 k _ rfl (getLast_randoms n es k rnd), fun h0 key => ?_⟩
  rw [h4 h0 key]
  simp [countOf]

theorem flNbRun_state {K : NbFloat} {n : ℕ} (hn : n ≤ 64) {ε ν Θ : ℝ} (hK : NbAccurate K n ε ν Θ)
    (hΘ : Real.pi / 2 ≤ Θ) (hκ : passErr ε Θ ≤ 1 / 2) {gates : List Gate} {es : List Elem} (hd : GatesDenote n gates es)
    (hv : ∀ e ∈ es, e.Valid n) (hu : ∀ e ∈ es, e.IsUnitary) (hA : ∀ e ∈ es, ∀ x ∈ e.angles, |x| ≤ Θ) (be : NbBackend)
    (hbe : CacheNear ε Θ n gates ⟨be.cache, be.cacheIdx⟩) (enableCache : Bool) {rnd : ℕ → ℝ} (hr : InUnit rnd) :
    ∃ be' φ, flNbRunArgs K n gates be none none enableCache rnd none =
        (be', .ok (.statevector (amplitudes n φ), rnd)) ∧
      CacheNear ε Θ n gates ⟨be'.cache, be'.cacheIdx⟩ ∧
      gap n φ (unitaries phSim es zeroVec) ≤ (1 + passErr ε Θ) ^ passes es - 1 := by
  obtain ⟨be', ctx, res, h1, h2, h3, -⟩ := flNbRun_near hn hK hΘ hκ hd hv hA 0 be hbe enableCache hr
    (shotsClear_unitary ε ν Θ n es hu 1 rnd)
  rw [errBound_unitary ε ν Θ n es hu, steps_unitary phSim n es hu] at h3
  obtain ⟨φ, hφ, hgap⟩ := FRel.qubits h3
  have hφ : ctx.qubits = vec n φ := hφ
  have hrnd : ctx.rnd = rnd := FRel.rnd h3
  refine ⟨be', φ, ?_, h2, ?_⟩
  · have hparse : nbParse none none = .ok (1, "statevector") := by decide
    simp only [flNbRunArgs, hparse]
    rw [show (1 : ℤ).toNat = 0 + 1 from rfl, h1]
    simp only [npReturn, if_true, hφ, hrnd, ← vec_eq_amplitudes]
  · rw [add_zero, mul_one] at hgap
    exact hgap

theorem gap_doc {n : ℕ} {es : List Elem} {φ : Vec} {B : ℝ} (h : gap n φ (unitaries phSim es zeroVec) ≤ B) :
    ∃ z : ℂ, ‖z‖ = 1 ∧ ((∀ e ∈ es, ¬ e.IsCu1) → z = 1) ∧
      √(∑ i ∈ Finset.range (2 ^ n), ‖φ i - z * unitaries phDoc es (fun j => if j = 0 then 1 else 0) i‖ ^ 2) ≤ B := by
  obtain ⟨z, hz1, hz2, hz3⟩ := unitaries_phSim es
  refine ⟨z, hz1, hz2, ?_⟩
  simp only [hz3] at h
  exact h

/-- C91. The state vector of a run without measurements, with kernels accurate to `ε`, differs from the documented state
(up to a global phase if there are `cu1` gates) by at most `(1 + κ)^N - 1` in the Euclidean norm, with or without the
cache. `κ` is `44 (1 + Θ) ε`, `Θ` bounds the angles and `N` is the number of passes over the state. -/
theorem C91_state (K : NbFloat) (n : ℕ) (hn : n ≤ 64) (ε ν Θ : ℝ) (hK : NbAccurate K n ε ν Θ) (hΘ : Real.pi / 2 ≤ Θ)
    (hκ : passErr ε Θ ≤ 1 / 2) (gates : List Gate) (es : List Elem) (hd : GatesDenote n gates es)
    (hv : ∀ e ∈ es, e.Valid n) (hu : ∀ e ∈ es, e.IsUnitary) (hA : ∀ e ∈ es, ∀ x ∈ e.angles, |x| ≤ Θ)
    (enableCache : Bool) (rnd : ℕ → ℝ) (hr : InUnit rnd) :
    ∃ z : ℂ, ‖z‖ = 1 ∧ ((∀ e ∈ es, ¬ e.IsCu1) → z = 1) ∧ ∃ be φ,
      flNbRunArgs K n gates NbBackend.new none none enableCache rnd none =
        (be, .ok (.statevector (amplitudes n φ), rnd)) ∧
      √(∑ i ∈ Finset.range (2 ^ n), ‖φ i - z * unitaries phDoc es (fun j => if j = 0 then 1 else 0) i‖ ^ 2) ≤
        (1 + passErr ε Θ) ^ passes es - 1 := by
  obtain ⟨be, φ, h1, -, h2⟩ := flNbRun_state hn hK hΘ hκ hd hv hu hA NbBackend.new (cacheNear_new ε Θ n gates) enableCache hr
  obtain ⟨z, hz1, hz2, hz3⟩ := gap_doc h2
  exact ⟨z, hz1, hz2, be, φ, h1, hz3⟩

/-- C91. Errors do not build up in the cache: if gates are added to a circuit that was run before with the same backend,
the bound is that of one run of the longer circuit. -/
theorem C91_resumed (K : NbFloat) (n : ℕ) (hn : n ≤ 64) (ε ν Θ : ℝ) (hK : NbAccurate K n ε ν Θ) (hΘ : Real.pi / 2 ≤ Θ)
    (hκ : passErr ε Θ ≤ 1 / 2) (gates more : List Gate) (es es' : List Elem) (hd : GatesDenote n gates es)
    (hd' : GatesDenote n more es') (hv : ∀ e ∈ es ++ es', e.Valid n) (hu : ∀ e ∈ es ++ es', e.IsUnitary)
    (hA : ∀ e ∈ es ++ es', ∀ x ∈ e.angles, |x| ≤ Θ) (enableCache enableCache' : Bool) (rnd rnd' : ℕ → ℝ)
    (hr : InUnit rnd) (hr' : InUnit rnd') :
    ∃ z : ℂ, ‖z‖ = 1 ∧ ((∀ e ∈ es ++ es', ¬ e.IsCu1) → z = 1) ∧ ∃ be φ,
      flNbRunArgs K n (gates ++ more) (flNbRunArgs K n gates NbBackend.new none none enableCache rnd none).1 none none
        enableCache' rnd' none = (be, .ok (.statevector (amplitudes n φ), rnd')) ∧
      √(∑ i ∈ Finset.range (2 ^ n), ‖φ i - z * unitaries phDoc (es ++ es') (fun j => if j = 0 then 1 else 0) i‖ ^ 2) ≤
        (1 + passErr ε Θ) ^ passes (es ++ es') - 1 := by
  obtain ⟨be, φ, h1, hc, -⟩ := flNbRun_state hn hK hΘ hκ hd (fun e he => hv e (by simp [he]))
    (fun e he => hu e (by simp [he])) (fun e he => hA e (by simp [he])) NbBackend.new (cacheNear_new ε Θ n gates)
    enableCache hr
  obtain ⟨be', φ', h2, -, h3⟩ := flNbRun_state hn hK hΘ hκ (gatesDenote_append_iff.2 ⟨es, es', hd, hd', rfl⟩) hv hu hA be
    (cacheNear_append hc more) enableCache' hr'
  obtain ⟨z, hz1, hz2, hz3⟩ := gap_doc h3
  exact ⟨z, hz1, hz2, be', φ', by rw [h1]; exact h2, hz3⟩

/-- C91. For every set of basis states, the probability computed from the state vector differs from the documented
probability by at most `(1 + κ)^(2N) - 1`. -/
theorem C91_probabilities (K : NbFloat) (n : ℕ) (hn : n ≤ 64) (ε ν Θ : ℝ) (hK : NbAccurate K n ε ν Θ)
    (hΘ : Real.pi / 2 ≤ Θ) (hκ : passErr ε Θ ≤ 1 / 2) (gates : List Gate) (es : List Elem) (hd : GatesDenote n gates es)
    (hv : ∀ e ∈ es, e.Valid n) (hu : ∀ e ∈ es, e.IsUnitary) (hA : ∀ e ∈ es, ∀ x ∈ e.angles, |x| ≤ Θ)
    (enableCache : Bool) (rnd : ℕ → ℝ) (hr : InUnit rnd) :
    ∃ be φ, flNbRunArgs K n gates NbBackend.new none none enableCache rnd none =
        (be, .ok (.statevector (amplitudes n φ), rnd)) ∧
      (∀ S ⊆ Finset.range (2 ^ n),
        |∑ i ∈ S, ‖φ i‖ ^ 2 - ∑ i ∈ S, ‖unitaries phDoc es (fun j => if j = 0 then 1 else 0) i‖ ^ 2| ≤
          (1 + passErr ε Θ) ^ (2 * passes es) - 1) ∧
      |∑ i ∈ Finset.range (2 ^ n), ‖φ i‖ ^ 2 - 1| ≤ (1 + passErr ε Θ) ^ (2 * passes es) - 1 := by
  obtain ⟨z, hz1, -, be, φ, h1, h2⟩ := C91_state K n hn ε ν Θ hK hΘ hκ gates es hd hv hu hA enableCache rnd hr
  have hz : ∀ i, ‖z * unitaries phDoc es (fun j => if j = 0 then 1 else 0) i‖ =
      ‖unitaries phDoc es (fun j => if j = 0 then 1 else 0) i‖ := fun i => by rw [norm_mul, hz1, one_mul]
  have hone : normSqN n (unitaries phDoc es (fun j => if j = 0 then 1 else 0)) = 1 := by
    have := (isom_unitaries (ph := phDoc) (fun _ => by simp [phDoc]) es hv).norm zeroVec
    exact this.trans (normSqN_zero n)
  have hone' : normSqN n (fun i => z * unitaries phDoc es (fun j => if j = 0 then 1 else 0) i) = 1 := by
    simp only [normSqN, hz] at hone ⊢
    exact hone
  have key : ∀ S ⊆ Finset.range (2 ^ n),
      |∑ i ∈ S, ‖φ i‖ ^ 2 - ∑ i ∈ S, ‖unitaries phDoc es (fun j => if j = 0 then 1 else 0) i‖ ^ 2| ≤
        (1 + passErr ε Θ) ^ (2 * passes es) - 1 := by
    intro S hS
    have := probabilities_near n φ _ _ hone' h2 S hS
    simp only [hz] at this
    refine this.trans (le_of_eq ?_)
    have : (1 + passErr ε Θ) ^ (2 * passes es) = ((1 + passErr ε Θ) ^ passes es) ^ 2 := by rw [mul_comm 2, pow_mul]
    rw [this]; ring
  refine ⟨be, φ, h1, key, ?_⟩
  have := key _ (Finset.Subset.refl _)
  simp only [normSqN] at hone
  rwa [hone] at this

/-- `Circuit(2).rx(0.3)[0]`, then `cu1(0.7)[0, 1]` added, in source order with double precision. -/
example : (∀ fl, RoundsTo fl (1 / 2 ^ 53) → NbAccurate (NbFloat.source (FloatOps.rounded fl Real.cos Real.sin)) 2
      (4 * (1 / 2 ^ 53)) ((1 + 4 * (1 / 2 ^ 53)) ^ (2 ^ 2 + 1) - 1) 2) ∧
    Real.pi / 2 ≤ 2 ∧ passErr (4 * (1 / 2 ^ 53)) 2 ≤ 1 / 2 ∧
    GatesDenote 2 [on1 (.rx 0.3) ((0 : ℕ) : ℤ)] [.one (.rx 0.3) 0] ∧
    GatesDenote 2 [on2 (.cu1 0.7) ((0 : ℕ) : ℤ) ((1 : ℕ) : ℤ)] [.two (.cu1 0.7) 0 1] ∧
    (∀ e ∈ ([.one (.rx 0.3) 0] ++ [.two (.cu1 0.7) 0 1] : List Elem), e.Valid 2 ∧ e.IsUnitary) ∧
    (∀ e ∈ ([.one (.rx 0.3) 0] ++ [.two (.cu1 0.7) 0 1] : List Elem), ∀ x ∈ e.angles, |x| ≤ 2) ∧
    InUnit (fun _ => 1 / 4) := by
  have h2 : Real.pi / 2 ≤ 2 := by have := Real.pi_le_four; linarith
  have hp : passErr (4 * (1 / 2 ^ 53)) 2 ≤ 1 / 2 := by norm_num [passErr]
  refine ⟨fun fl hfl => C91_source _ 2 (by norm_num) _ _ _
      (C89_doubles fl _ _ _ 2 (by norm_num) (by norm_num) hfl (by simp) (by simp)) h2 hp, h2, hp,
    on1_denote _ 0 rfl, on2_denote _ (by norm_num) rfl, ?_, ?_, ?_⟩
  · simp [Elem.Valid, Elem.IsUnitary]
  · simp only [List.cons_append, List.nil_append, List.mem_cons, List.not_mem_nil, or_false, forall_eq_or_imp, forall_eq,
      Elem.angles]
    constructor <;> rw [abs_of_pos (by norm_num)] <;> norm_num
  · intro k; norm_num

/-! ## Measurement and reset -/

/-- C92. If in every shot no random number is within the rounding error of the probability it is compared with, and the
measured results have probabilities above four times that error, then the counts with accurate kernels are those of the
exact machine, and the state vector differs from the exact one after the last shot by at most `errBound`. -/
theorem C92_counts (K : NbFloat) (n : ℕ) (hn0 : 0 < n) (hn : n ≤ 64) (ε ν Θ : ℝ) (hK : NbAccurate K n ε ν Θ)
    (hΘ : Real.pi / 2 ≤ Θ) (hκ : passErr ε Θ ≤ 1 / 2) (gates : List Gate) (es : List Elem) (hd : GatesDenote n gates es)
    (hv : ∀ e ∈ es, e.Valid n) (hA : ∀ e ∈ es, ∀ x ∈ e.angles, |x| ≤ Θ) (k : ℕ) (enableCache : Bool) (rnd : ℕ → ℝ)
    (hr : InUnit rnd) (hc : ShotsClear ε ν Θ n es (k + 1) rnd) :
    ∃ be φ c, flNbRunArgs K n gates NbBackend.new (some (k + 1 : ℕ)) (some "statevector_and_shots") enableCache rnd none =
        (be, .ok (.both (amplitudes n φ) c, randomsAfter n es (k + 1) rnd)) ∧
      (∀ key, countOf c key = (shotStates phSim n es (k + 1) rnd).countP (fun s => decide (bitString n s.creg = key))) ∧
      √(∑ i ∈ Finset.range (2 ^ n),
          ‖φ i - (steps phSim n es (initState (randomsAfter n es k rnd))).psi i‖ ^ 2) ≤
        errBound ε ν Θ n es (initState (randomsAfter n es k rnd)) 0 := by
  obtain ⟨be, ctx, res, h1, -, h2, h3⟩ := flNbRun_near hn hK hΘ hκ hd hv hA k NbBackend.new (cacheNear_new ε Θ n gates)
    enableCache hr hc
  obtain ⟨φ, hφ, hgap⟩ := FRel.qubits h2
  have hφ : ctx.qubits = vec n φ := hφ
  have hrnd : ctx.rnd = _ := FRel.rnd h2
  refine ⟨be, φ, res, ?_, h3 hn0, hgap⟩
  have hparse : nbParse (some ((k + 1 : ℕ) : ℤ)) (some "statevector_and_shots") =
      .ok (((k + 1 : ℕ) : ℤ), "statevector_and_shots") := by
    have : "statevector_and_shots" ∈ nbReturnTypes := by decide
    simp only [nbParse, if_pos this]
  have hlast : ∀ (j : ℕ) (r : ℕ → ℝ), randomsAfter n es (j + 1) r =
      (steps phSim n es (initState (randomsAfter n es j r))).rnd := by
    intro j
    induction j with
    | zero => intro r; rfl
    | succ j ih => intro r; exact ih _
  simp only [flNbRunArgs, hparse]
  rw [Int.toNat_natCast, h1]
  simp only [npReturn, show ("statevector_and_shots" = "statevector") = False by decide,
    show ("statevector_and_shots" = "shots") = False by decide, if_false, if_true, hφ, hrnd, hlast, ← vec_eq_amplitudes]

/-- C92. Under the same hypotheses the counts are those of the run in exact arithmetic, of this backend and of the numpy
backend. -/
theorem C92_same_counts (K : NbFloat) (n : ℕ) (hn0 : 0 < n) (hn : n ≤ 64) (ε ν Θ : ℝ) (hK : NbAccurate K n ε ν Θ)
    (hΘ : Real.pi / 2 ≤ Θ) (hκ : passErr ε Θ ≤ 1 / 2) (gates : List Gate) (es : List Elem) (hd : GatesDenote n gates es)
    (hv : ∀ e ∈ es, e.Valid n) (hA : ∀ e ∈ es, ∀ x ∈ e.angles, |x| ≤ Θ) (k : ℕ) (enableCache : Bool) (rnd : ℕ → ℝ)
    (hr : InUnit rnd) (hc : ShotsClear ε ν Θ n es (k + 1) rnd) :
    ∃ c c' rest rest',
      (flNbRunArgs K n gates NbBackend.new (some (k + 1 : ℕ)) none enableCache rnd none).2 = .ok (.shots c, rest) ∧
      (nbRunArgs n gates NbBackend.new ⟨some (k + 1 : ℕ), none, enableCache, false, rnd, none⟩).2 = .ok (.shots c', rest') ∧
      freshRun n gates ⟨some (k + 1 : ℕ), none, false, rnd⟩ = .ok (.shots c', rest') ∧
      ∀ key, countOf c key = countOf c' key := by
  obtain ⟨be, ctx, res, h1, -, h2, h3⟩ := flNbRun_near hn hK hΘ hκ hd hv hA k NbBackend.new (cacheNear_new ε Θ n gates)
    enableCache hr hc
  obtain ⟨c', rest', k1, k2⟩ := C16_counts_exact n hn0 gates es hd hv (k + 1) false rnd hr
  refine ⟨res, c', ctx.rnd, rest', ?_, ?_, k1, fun key => by rw [h3 hn0 key, k2 key]⟩
  · have hparse : nbParse (some ((k + 1 : ℕ) : ℤ)) none = .ok (((k + 1 : ℕ) : ℤ), "shots") := by
      simp [nbParse, nbReturnTypes]
    simp only [flNbRunArgs, hparse]
    rw [Int.toNat_natCast, h1]
    simp only [npReturn, show ("shots" = "statevector") = False by decide, if_false, if_true]
  · rw [C23_numba_eq_numpy n hn gates es hd hv _ rfl (.inl hr)]
    exact k1

/-- C92. With both backends in floating point, accurate to the same bounds, the counts are the same. -/
theorem C92_backends_agree (F : FloatOps) (K : NbFloat) (n : ℕ) (hn0 : 0 < n) (hn : n ≤ 64) (ε ν Θ : ℝ)
    (hF : Accurate F n ε ν) (hK : NbAccurate K n ε ν Θ) (hΘ : Real.pi / 2 ≤ Θ) (hκ : passErr ε Θ ≤ 1 / 2)
    (gates : List Gate) (es : List Elem) (hd : GatesDenote n gates es) (hv : ∀ e ∈ es, e.Valid n)
    (hA : ∀ e ∈ es, ∀ x ∈ e.angles, |x| ≤ Θ) (k : ℕ) (enableCache : Bool) (rnd : ℕ → ℝ) (hr : InUnit rnd)
    (hc : ShotsClear ε ν Θ n es (k + 1) rnd) :
    ∃ c c' rest rest',
      (flNbRunArgs K n gates NbBackend.new (some (k + 1 : ℕ)) none enableCache rnd none).2 = .ok (.shots c, rest) ∧
      (flRunArgs F n gates NpBackend.new (some (k + 1 : ℕ)) none rnd).2 = .ok (.shots c', rest') ∧
      ∀ key, countOf c key = countOf c' key := by
  obtain ⟨c, e, r, r', h1, -, h2, h3⟩ := C92_same_counts K n hn0 hn ε ν Θ hK hΘ hκ gates es hd hv hA k enableCache rnd hr hc
  obtain ⟨c', e', s, s', k1, k2, k3⟩ := C90_same_counts F n hn0 ε ν Θ hF hΘ hκ gates es hd hv hA k rnd hr hc
  rw [h2] at k2
  obtain ⟨rfl, rfl⟩ : e = e' ∧ r' = s' := by simpa using k2
  exact ⟨c, c', r, s, h1, k1, fun key => by rw [h3, k3]⟩

/-- Two shots of `Circuit(1).h[0].m[0]` with the random numbers `0.25`, in double precision. -/
example : (∀ fl, RoundsTo fl (1 / 2 ^ 53) →
      NbAccurate (NbFloat.source (FloatOps.rounded fl Real.cos Real.sin)) 1 (4 * (1 / 2 ^ 53))
        ((1 + 4 * (1 / 2 ^ 53)) ^ (2 ^ 1 + 1) - 1) 2 ∧
      Accurate (FloatOps.rounded fl Real.cos Real.sin) 1 (4 * (1 / 2 ^ 53)) ((1 + 4 * (1 / 2 ^ 53)) ^ (2 ^ 1 + 1) - 1)) ∧
    Real.pi / 2 ≤ 2 ∧ passErr (4 * (1 / 2 ^ 53)) 2 ≤ 1 / 2 ∧
    GatesDenote 1 [on1 .h ((0 : ℕ) : ℤ), .measure (.one (.int 0))] [.one .h 0, .meas 0] ∧
    (∀ e ∈ ([.one .h 0, .meas 0] : List Elem), e.Valid 1) ∧
    (∀ e ∈ ([.one .h 0, .meas 0] : List Elem), ∀ x ∈ e.angles, |x| ≤ 2) ∧ InUnit (fun _ => 1 / 4) ∧
    ShotsClear (4 * (1 / 2 ^ 53)) ((1 + 4 * (1 / 2 ^ 53)) ^ (2 ^ 1 + 1) - 1) 2 1 [.one .h 0, .meas 0] 2 (fun _ => 1 / 4) := by
  have hp : prob 1 0 false (Elem.unitary phSim (.one .h 0) (fun j => if j = 0 then 1 else 0)) = 1 / 2 := by
    rw [show Elem.unitary phSim (.one .h 0) = app mH 0 from rfl]
    have : (Finset.range (2 ^ 1)).filter (fun i => i.testBit 0 = false) = {0} := by decide
    rw [prob, this, Finset.sum_singleton]
    simp [app, mH, flipBit]
  have hA : AllClear (4 * (1 / 2 ^ 53)) ((1 + 4 * (1 / 2 ^ 53)) ^ (2 ^ 1 + 1) - 1) 2 1 [.one .h 0, .meas 0]
      (initState fun _ => 1 / 4) 0 := by
    refine ⟨trivial, ⟨?_, ?_⟩, trivial⟩
    · simp only [Elem.step, initState, hp]
      norm_num [probErr, Elem.errStep, passErr, Elem.passes, abs_of_neg]
    · simp only [resultProb, Elem.step, initState, hp]
      norm_num [probErr, Elem.errStep, passErr, Elem.passes]
  have h2 : Real.pi / 2 ≤ 2 := by have := Real.pi_le_four; linarith
  have hk : passErr (4 * (1 / 2 ^ 53)) 2 ≤ 1 / 2 := by norm_num [passErr]
  refine ⟨fun fl hfl => ?_, h2, hk, ?_, ?_, ?_, ?_, ⟨hA, ?_, trivial⟩⟩
  · have hF := C89_doubles fl Real.cos Real.sin (1 / 2 ^ 53) 1 (by norm_num) (by norm_num) hfl (by simp) (by simp)
    refine ⟨C91_source _ 1 (by norm_num) _ _ _ hF h2 hk, { hF with normPow2 := fun v hv => ?_ }⟩
    refine (hF.normPow2 v hv).trans (mul_le_mul_of_nonneg_right ?_ (List.sum_nonneg fun x hx => ?_))
    · norm_num
    · obtain ⟨z, -, rfl⟩ := List.mem_map.1 hx; positivity
  · refine on1_denote _ 0 ⟨[.meas 0], [], ⟨[0], ?_, rfl⟩, rfl, rfl⟩
    rw [← slicing_eq_iff]; rfl
  · simp [Elem.Valid]
  · simp [Elem.angles]
  · intro k; norm_num
  · have : (steps phSim 1 [.one .h 0, .meas 0] (initState fun _ => 1 / 4)).rnd = fun _ => 1 / 4 := by
      simp only [steps, List.foldl_cons, List.foldl_nil, Elem.step, initState, hp]
      rw [if_pos (by norm_num)]
    rw [this]; exact hA

end

end Blueqat
