import Verif.Props.Energy
import Verif.Props.VqeRun
import Verif.QuboLemmas
import Verif.Spec.Multinomial
import Mathlib.MeasureTheory.Integral.Bochner.Set
import Mathlib.MeasureTheory.Measure.Lebesgue.Basic

/-!
# Property C72: the state vector sampler
-/

set_option linter.unusedSimpArgs false
set_option linter.unusedVariables false

namespace Blueqat

open Spec MeasureTheory

noncomputable section

theorem outcomeProb_nonneg (v : List ℂ) (meas : List ℕ) (key : List ℕ) : 0 ≤ outcomeProb v meas key :=
  Finset.sum_nonneg (fun _ _ => by positivity)

theorem outcomeProb_phase (n : ℕ) (z : ℂ) (hz : ‖z‖ = 1) (ψ : Vec) (meas key : List ℕ) :
    outcomeProb (amplitudes n (fun i => z * ψ i)) meas key = outcomeProb (amplitudes n ψ) meas key := by
  have h : (amplitudes n (fun i => z * ψ i)).length = (amplitudes n ψ).length := by simp [amplitudes]
  rw [outcomeProb, outcomeProb, h]
  refine Finset.sum_congr rfl (fun i hi => ?_)
  have : i < 2 ^ n := by simpa [amplitudes] using (Finset.mem_filter.1 hi).1
  simp [amplitudes, this, hz]

theorem amplitudes_norm (n : ℕ) (ψ : Vec) : ((amplitudes n ψ).map (fun z => ‖z‖ ^ 2)).sum = normSqN n ψ := by
  rw [amplitudes, List.map_map, list_range_sum]
  rfl

/-- **C72.** For every circuit of unitary gates with valid targets and every list of qubits: the sampler calls
`np.random.multinomial` with the probabilities of exactly the outcomes that can occur, which sum to 1, and returns for each
of them the number drawn divided by the number of samples. (The exact sampler returns the probabilities of the same outcomes.)
The circuit is not changed. -/
theorem C72_outcomes (c : OpsVal) (es : List Elem) (hd : GatesDenote c.n c.ops es)
    (hv : ∀ e ∈ es, e.Valid c.n ∧ e.IsUnitary) (meas : List ℕ) (rnd : ℕ → ℝ) :
    ∃ keys : List (List ℕ), keys.Nodup ∧
      (∀ key, key ∈ keys ↔ outcomeProb (amplitudes c.n (unitaries phDoc es (fun j => if j = 0 then 1 else 0))) meas key ≠ 0) ∧
      (keys.map (outcomeProb (amplitudes c.n (unitaries phDoc es (fun j => if j = 0 then 1 else 0))) meas)).sum = 1 ∧
      nonSamplingSampler c (meas.map (fun q : ℕ => (q : ℤ))) rnd = (c, .ok (keys.zip (keys.map
        (outcomeProb (amplitudes c.n (unitaries phDoc es (fun j => if j = 0 then 1 else 0))) meas)), rnd)) ∧
      ∀ N draw,
        (draw (keys.map (outcomeProb (amplitudes c.n (unitaries phDoc es (fun j => if j = 0 then 1 else 0))) meas))).length =
          keys.length →
        stateVectorSampler N draw c (meas.map (fun q : ℕ => (q : ℤ))) rnd = (c, .ok (keys.zip
          ((draw (keys.map (outcomeProb (amplitudes c.n (unitaries phDoc es (fun j => if j = 0 then 1 else 0))) meas))).map
            (fun k : ℕ => (k : ℝ) / N)), rnd)) := by
  set ψ := unitaries phDoc es (fun j => if j = 0 then 1 else 0) with hψ
  obtain ⟨z, hz, hrun, -⟩ := run_unitary c es hd hv rnd
  rw [← hψ] at hrun
  obtain ⟨d, h1, h2, h3, h4⟩ := C43_expect (amplitudes c.n (fun i => z * ψ i)) meas
  have hp : ∀ p ∈ d, p.2 = outcomeProb (amplitudes c.n ψ) meas p.1 ∧ p.2 ≠ 0 := by
    intro p hp
    have := PyDict.get_of_mem h2 (v := p.2) hp
    rw [h3, outcomeProb_phase c.n z hz] at this
    split_ifs at this with h0
    exact ⟨(Option.some.inj this).symm, by rw [← Option.some.inj this]; exact h0⟩
  have hmap : (d.map Prod.fst).map (outcomeProb (amplitudes c.n ψ) meas) = d.map Prod.snd := by
    rw [List.map_map]
    exact List.map_congr_left (fun p h => (hp p h).1.symm)
  have hsum : (d.map Prod.snd).sum = 1 := by
    rw [h4, amplitudes_norm]
    have h1 := (isom_unitaries norm_phDoc es (fun e he => (hv e he).1) (n := c.n)).norm zeroState
    rw [zeroState_norm] at h1
    rw [← h1]
    simp only [normSqN, norm_mul, hz, one_mul]
    rfl
  refine ⟨d.map Prod.fst, h2, fun key => ?_, by rw [hmap, hsum], ?_, fun N draw hlen => ?_⟩
  · have h := h3 key
    rw [outcomeProb_phase c.n z hz] at h
    constructor
    · intro hk h0
      rw [if_pos h0, PyDict.get_eq_none] at h
      exact h hk
    · intro h0
      by_contra hk
      rw [if_neg h0, PyDict.get_eq_none.2 hk] at h
      cases h
  · have hzip : ∀ l : PyDict (List ℕ) ℝ, (l.map Prod.fst).zip (l.map Prod.snd) = l := by
      intro l
      induction l with
      | nil => rfl
      | cons p l ih => simp only [List.map_cons, List.zip_cons_cons, ih]
    rw [hmap, hzip]
    simp only [nonSamplingSampler, hrun, h1, bind, Except.bind]
  · rw [hmap] at hlen ⊢
    have hne : d ≠ [] := by rintro rfl; simp at hsum
    simp only [stateVectorSampler, hrun, h1, bind, Except.bind, if_neg hne]
    have hl : (d.map Prod.fst).length = ((draw (d.map Prod.snd)).map (fun k : ℕ => (k : ℝ) / N)).length := by
      simp only [List.length_map] at hlen ⊢; exact hlen.symm
    have hz : (((d.map Prod.fst).zip ((draw (d.map Prod.snd)).map (fun k : ℕ => (k : ℝ) / N))).map Prod.fst) = d.map Prod.fst :=
      List.map_fst_zip (le_of_eq hl)
    have := PyDict.foldl_set (fun k : List ℕ => k) ((d.map Prod.fst).zip ((draw (d.map Prod.snd)).map (fun k : ℕ => (k : ℝ) / N))) []
      (by simp only [List.map_nil, List.nil_append]; rw [show (fun p : List ℕ × ℝ => p.1) = Prod.fst from rfl, hz]; exact h2)
    rw [this]
    simp

theorem zip_weighted (g : List ℕ → ℝ) : ∀ (l : List (List ℕ)) (x : List ℝ), l.length = x.length →
    ((l.zip x).map (fun p => g p.1 * p.2)).sum = ∑ i ∈ Finset.range l.length, g (l.getD i []) * x.getD i 0 := by
  intro l
  induction l with
  | nil => intro x _; simp
  | cons a l ih =>
    intro x h
    cases x with
    | nil => simp at h
    | cons b x =>
      rw [List.zip_cons_cons, List.map_cons, List.sum_cons, ih x (by simpa using h), List.length_cons, Finset.sum_range_succ']
      simp [add_comm]

/-- **C72.** If the numbers drawn sum to the number of samples, the fractions sum to 1. -/
theorem C72_normalised (c : OpsVal) (es : List Elem) (hd : GatesDenote c.n c.ops es)
    (hv : ∀ e ∈ es, e.Valid c.n ∧ e.IsUnitary) (meas : List ℕ) (rnd : ℕ → ℝ) (N : ℕ) (hN : 0 < N) (draw : List ℝ → List ℕ)
    (hl : ∀ ps, (draw ps).length = ps.length) (hs : ∀ ps, ps.sum = 1 → (draw ps).sum = N) :
    ∃ d, stateVectorSampler N draw c (meas.map (fun q : ℕ => (q : ℤ))) rnd = (c, .ok (d, rnd)) ∧
      (d.map Prod.fst).Nodup ∧ (∀ p ∈ d, 0 ≤ p.2) ∧ (d.map Prod.snd).sum = 1 := by
  obtain ⟨keys, h1, -, h3, -, h4⟩ := C72_outcomes c es hd hv meas rnd
  set ps := keys.map (outcomeProb (amplitudes c.n (unitaries phDoc es (fun j => if j = 0 then 1 else 0))) meas) with hps
  have hlen : keys.length = ((draw ps).map (fun k : ℕ => (k : ℝ) / N)).length := by
    rw [List.length_map, hl, hps, List.length_map]
  refine ⟨_, h4 N draw (by rw [hl, hps, List.length_map]), ?_, ?_, ?_⟩
  · rw [List.map_fst_zip (le_of_eq hlen)]; exact h1
  · intro p hp
    have := (List.of_mem_zip hp).2
    obtain ⟨k, -, hk⟩ := List.mem_map.1 this
    rw [← hk]; positivity
  · rw [List.map_snd_zip (le_of_eq hlen.symm)]
    have e : ∀ l : List ℕ, (l.map (fun k : ℕ => (k : ℝ) / N)).sum = (l.sum : ℝ) / N := by
      intro l
      induction l with
      | nil => simp
      | cons a l ih => rw [List.map_cons, List.sum_cons, ih, List.sum_cons]; push_cast; ring
    rw [e, hs ps h3, div_self (by exact_mod_cast hN.ne')]

/-- The mean of a weighted sum of drawn fractions. -/
theorem mean_weighted {Ω : Type} [MeasurableSpace Ω] (P : Measure Ω) (N : ℕ) (hN : 0 < N) (draw : Ω → List ℝ → List ℕ)
    (h : DrawsOnAverage P N draw) (g : List ℕ → ℝ) (keys : List (List ℕ)) (ps : List ℝ) (hl : keys.length = ps.length)
    (h0 : ∀ p ∈ ps, 0 ≤ p) (h1 : ps.sum = 1) :
    Integrable (fun ω => ((keys.zip ((draw ω ps).map (fun k : ℕ => (k : ℝ) / N))).map (fun p => g p.1 * p.2)).sum) P ∧
    ∫ ω, ((keys.zip ((draw ω ps).map (fun k : ℕ => (k : ℝ) / N))).map (fun p => g p.1 * p.2)).sum ∂P =
      ((keys.zip ps).map (fun p => g p.1 * p.2)).sum := by
  obtain ⟨a, b⟩ := h ps h0 h1
  have hN' : (N : ℝ) ≠ 0 := by exact_mod_cast hN.ne'
  have e : (fun ω => ((keys.zip ((draw ω ps).map (fun k : ℕ => (k : ℝ) / N))).map (fun p => g p.1 * p.2)).sum) =
      fun ω => ∑ i ∈ Finset.range keys.length, g (keys.getD i []) / N * ((draw ω ps).getD i 0 : ℝ) := by
    funext ω
    rw [zip_weighted g keys _ (by rw [List.length_map, a, hl])]
    refine Finset.sum_congr rfl (fun i hi => ?_)
    have hi' : i < (draw ω ps).length := by rw [a, ← hl]; exact Finset.mem_range.1 hi
    simp only [List.getD_eq_getElem?_getD, List.getElem?_map, List.getElem?_eq_getElem hi', Option.map_some, Option.getD_some]
    ring
  have hint : ∀ i ∈ Finset.range keys.length,
      Integrable (fun ω => g (keys.getD i []) / N * ((draw ω ps).getD i 0 : ℝ)) P := fun i _ => (b i).1.const_mul _
  rw [e]
  refine ⟨integrable_finset_sum _ hint, ?_⟩
  rw [integral_finset_sum _ hint, zip_weighted g keys ps hl]
  refine Finset.sum_congr rfl (fun i _ => ?_)
  rw [integral_const_mul, (b i).2]
  field_simp

theorem sign_sum (l : List (List ℕ × ℝ)) :
    (l.map (fun p => (-1 : ℂ) ^ p.1.sum * (p.2 : ℂ))).sum = (((l.map (fun p => (-1 : ℝ) ^ p.1.sum * p.2)).sum : ℝ) : ℂ) := by
  induction l with
  | nil => simp
  | cons p l ih => simp only [List.map_cons, List.sum_cons, ih]; push_cast; ring

theorem mean_loop {Ω : Type} [MeasurableSpace Ω] (P : Measure Ω) (N : ℕ) (hN : 0 < N) (draw : Ω → List ℝ → List ℕ)
    (h : DrawsOnAverage P N draw) (c : OpsVal) (es : List Elem) (hd : GatesDenote c.n c.ops es)
    (hv : ∀ e ∈ es, e.Valid c.n ∧ e.IsUnitary) (rnd : ℕ → ℝ) : ∀ ts : List PTerm, (∀ t ∈ ts, ∀ o ∈ t.ops, o.n < c.n) →
    ∃ (x : Ω → ℂ) (y : ℂ), (∀ val, energyLoop nonSamplingSampler c ts val rnd = .ok (val + y, rnd)) ∧
      (∀ ω val, energyLoop (stateVectorSampler N (draw ω)) c ts val rnd = .ok (val + x ω, rnd)) ∧
      Integrable (fun ω => (x ω).re) P ∧ ∫ ω, (x ω).re ∂P = y.re := by
  intro ts
  induction ts with
  | nil => intro _; exact ⟨fun _ => 0, 0, by simp [energyLoop], by simp [energyLoop], by simp, by simp⟩
  | cons t ts ih =>
    intro hb
    obtain ⟨x, y, hy, hx, hi, hm⟩ := ih (fun t ht => hb t (by simp [ht]))
    obtain ⟨eb, hb1, hb2, -⟩ := actsAs_basis (-(Real.pi / 2)) t.ops (hb t (by simp))
    obtain ⟨keys, h1, h2, h3, h5, h4⟩ := C72_outcomes ⟨c.n, c.ops ++ basisGates (-(Real.pi / 2)) t.ops⟩ (es ++ eb)
      (gatesDenote_append hd hb1) (by
        intro e he
        rcases List.mem_append.1 he with h | h
        · exact hv e h
        · exact hb2 e h) (t.ops.map POp.n) rnd
    set ps := keys.map (outcomeProb (amplitudes c.n (unitaries phDoc (es ++ eb) (fun j => if j = 0 then 1 else 0)))
      (t.ops.map POp.n)) with hps
    have hpos : ∀ p ∈ ps, 0 ≤ p := by
      intro p hp
      obtain ⟨k, -, rfl⟩ := List.mem_map.1 hp
      exact outcomeProb_nonneg _ _ _
    obtain ⟨m1, m2⟩ := mean_weighted P N hN draw h (fun k => (-1 : ℝ) ^ k.sum) keys ps (by simp [hps]) hpos h3
    simp only [List.map_map, Function.comp_def] at h5 h4
    refine ⟨fun ω => t.coeff * (((keys.zip ((draw ω ps).map (fun k : ℕ => (k : ℝ) / N))).map
        (fun p => (-1 : ℝ) ^ p.1.sum * p.2)).sum : ℝ) + x ω,
      t.coeff * (((keys.zip ps).map (fun p => (-1 : ℝ) ^ p.1.sum * p.2)).sum : ℝ) + y, ?_, ?_, ?_, ?_⟩
    · intro val
      simp only [energyLoop, energyBasis_ok t.ops c (hb t (by simp)), bind, Except.bind, h5]
      rw [hy, energySum_eq, sign_sum, add_assoc]
    · intro ω val
      simp only [energyLoop, energyBasis_ok t.ops c (hb t (by simp)), bind, Except.bind,
        h4 N (draw ω) (by rw [(h ps hpos h3).1]; simp [hps])]
      rw [hx, energySum_eq, sign_sum, add_assoc]
    · simp only [Complex.add_re, Complex.re_mul_ofReal]
      exact (m1.const_mul _).add hi
    · simp only [Complex.add_re, Complex.re_mul_ofReal]
      rw [integral_add (m1.const_mul _) hi, integral_const_mul, m2, hm]

/-- **C72.** The energy computed with the state vector sampler is on average the energy of the exact sampler: for every
circuit of unitary gates, every Hamiltonian on its qubits and every number of samples. -/
theorem C72_unbiased {Ω : Type} [MeasurableSpace Ω] (P : Measure Ω) (N : ℕ) (hN : 0 < N) (draw : Ω → List ℝ → List ℕ)
    (h : DrawsOnAverage P N draw) (H : PExpr) (c : OpsVal) (hb : ∀ t ∈ H.terms, ∀ o ∈ t.ops, o.n < c.n) (es : List Elem)
    (hd : GatesDenote c.n c.ops es) (hv : ∀ e ∈ es, e.Valid c.n ∧ e.IsUnitary) (rnd : ℕ → ℝ) :
    ∃ (x : Ω → ℝ) (y : ℝ), (∀ ω, getEnergy H c (stateVectorSampler N (draw ω)) rnd = .ok (x ω, rnd)) ∧
      getEnergy H c nonSamplingSampler rnd = .ok (y, rnd) ∧ Integrable x P ∧ ∫ ω, x ω ∂P = y := by
  obtain ⟨x, y, hy, hx, hi, hm⟩ := mean_loop P N hN draw h c es hd hv rnd H.terms hb
  refine ⟨fun ω => (x ω).re, y.re, fun ω => ?_, ?_, hi, hm⟩
  · simp only [getEnergy, hx, bind, Except.bind, zero_add]
  · simp only [getEnergy, hy, bind, Except.bind, zero_add]

/-- **C72.** On average the sampled energy is the real part of `⟨ψ|H|ψ⟩`, if every term has an even number of `Y`: the others
enter with the wrong sign, as in C44. -/
theorem C72_mean_even {Ω : Type} [MeasurableSpace Ω] (P : Measure Ω) (N : ℕ) (hN : 0 < N) (draw : Ω → List ℝ → List ℕ)
    (h : DrawsOnAverage P N draw) (H : PExpr) (hn : ∀ t ∈ H.terms, t.ops.Pairwise (fun a b => a.n ≠ b.n)) (c : OpsVal)
    (hb : ∀ t ∈ H.terms, ∀ o ∈ t.ops, o.n < c.n) (hy : ∀ t ∈ H.terms, Even (yCount t.ops)) (es : List Elem)
    (hd : GatesDenote c.n c.ops es) (hv : ∀ e ∈ es, e.Valid c.n ∧ e.IsUnitary) (rnd : ℕ → ℝ) :
    ∃ x : Ω → ℝ, (∀ ω, getEnergy H c (stateVectorSampler N (draw ω)) rnd = .ok (x ω, rnd)) ∧ Integrable x P ∧
      ∫ ω, x ω ∂P = (expectation c.n (exprOp H) (unitaries phDoc es (fun j => if j = 0 then 1 else 0))).re := by
  obtain ⟨x, y, h1, h2, h3, h4⟩ := C72_unbiased P N hN draw h H c hb es hd hv rnd
  rw [C44_energy_partial H hn c hb hy es hd hv rnd] at h2
  simp only [Except.ok.injEq, Prod.mk.injEq, and_true] at h2
  exact ⟨x, h1, h3, by rw [h4, h2]⟩

/-! ## Non-vacuity -/

/-- All `N` draws in the category in which the number `u` falls. -/
def allIn (N : ℕ) (u : ℝ) : ℝ → List ℝ → List ℕ
  | _, [] => []
  | acc, p :: ps => (open Classical in if u ∈ Set.Ico acc (acc + p) then N else 0) :: allIn N u (acc + p) ps

theorem allIn_length (N : ℕ) (u : ℝ) (ps : List ℝ) : ∀ acc, (allIn N u acc ps).length = ps.length := by
  induction ps with
  | nil => intro _; rfl
  | cons p ps ih => intro acc; simp [allIn, ih]

theorem allIn_mean (N : ℕ) (ps : List ℝ) (h : ∀ p ∈ ps, 0 ≤ p) : ∀ acc, 0 ≤ acc → acc + ps.sum ≤ 1 → ∀ i,
    Integrable (fun u => ((allIn N u acc ps).getD i 0 : ℝ)) (volume.restrict (Set.Icc (0 : ℝ) 1)) ∧
    ∫ u in Set.Icc (0 : ℝ) 1, ((allIn N u acc ps).getD i 0 : ℝ) = N * ps.getD i 0 := by
  induction ps with
  | nil => intro acc _ _ i; simp [allIn]
  | cons p ps ih =>
    intro acc h0 h1 i
    have hp := h p (by simp)
    have hs : 0 ≤ ps.sum := List.sum_nonneg (fun q hq => h q (by simp [hq]))
    rw [List.sum_cons] at h1
    cases i with
    | succ i =>
      simp only [allIn, List.getD_cons_succ]
      exact ih (fun q hq => h q (by simp [hq])) (acc + p) (by linarith) (by linarith) i
    | zero =>
      have e : (fun u => ((allIn N u acc (p :: ps)).getD 0 0 : ℝ)) = (Set.Ico acc (acc + p)).indicator (fun _ => (N : ℝ)) := by
        funext u
        simp only [allIn, List.getD_cons_zero, Set.indicator]
        split_ifs <;> simp
      have hsub : Set.Ico acc (acc + p) ⊆ Set.Icc 0 1 := fun u hu => ⟨le_trans h0 hu.1, by linarith [hu.2]⟩
      rw [e]
      refine ⟨(integrable_const _).indicator measurableSet_Ico, ?_⟩
      rw [integral_indicator measurableSet_Ico, Measure.restrict_restrict measurableSet_Ico,
        Set.inter_eq_self_of_subset_left hsub]
      simp [hp, mul_comm]

/-- A way to draw with the right means: all draws in the category a uniformly distributed number falls into. -/
theorem allIn_draws (N : ℕ) : DrawsOnAverage (volume.restrict (Set.Icc (0 : ℝ) 1)) N (fun u ps => allIn N u 0 ps) :=
  fun ps h0 h1 => ⟨fun u => allIn_length N u ps 0, fun i => allIn_mean N ps h0 0 (le_refl _) (by linarith) i⟩

/-- The Bell state and `X[0]*X[1] + 3*Z[0]*Z[1]`, 100 samples. -/
example (rnd : ℕ → ℝ) : ∃ x : ℝ → ℝ, (∀ u, getEnergy ⟨[⟨[⟨.X, 0⟩, ⟨.X, 1⟩], 1⟩, ⟨[⟨.Z, 0⟩, ⟨.Z, 1⟩], 3⟩]⟩
      ⟨2, [on1 .h 0, on2 .cx 0 1]⟩ (stateVectorSampler 100 (fun ps => allIn 100 u 0 ps)) rnd = .ok (x u, rnd)) ∧
    ∫ u in Set.Icc (0 : ℝ) 1, x u = (expectation 2 (exprOp ⟨[⟨[⟨.X, 0⟩, ⟨.X, 1⟩], 1⟩, ⟨[⟨.Z, 0⟩, ⟨.Z, 1⟩], 3⟩]⟩)
      (unitaries phDoc [.one .h 0, .two .cx 0 1] (fun j => if j = 0 then 1 else 0))).re := by
  obtain ⟨x, h1, -, h2⟩ := C72_mean_even _ 100 (by norm_num) _ (allIn_draws 100)
    ⟨[⟨[⟨.X, 0⟩, ⟨.X, 1⟩], 1⟩, ⟨[⟨.Z, 0⟩, ⟨.Z, 1⟩], 3⟩]⟩ (by simp) ⟨2, [on1 .h 0, on2 .cx 0 1]⟩ (by simp) (by simp [yCount])
    [.one .h 0, .two .cx 0 1]
    ⟨_, _, gateDenotes_on1 2 .h 0, ⟨_, _, gateDenotes_on2 2 .cx 0 1 (by norm_num), rfl, rfl⟩, rfl⟩
    (by simp [Elem.Valid, Elem.IsUnitary]) rnd
  exact ⟨x, h1, h2⟩

end

end Blueqat
