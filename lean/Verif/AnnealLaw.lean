import Verif.ChainLemmas
import Verif.Props.Anneal
import Verif.BornLemmas
import Mathlib.MeasureTheory.Measure.Prod
import Mathlib.MeasureTheory.Measure.Real

/-!
# Lemmas: the law of an annealing run with independent random numbers
-/

set_option linter.unusedSimpArgs false
set_option linter.unusedVariables false

namespace Blueqat

open Spec MeasureTheory

noncomputable section

/-! ## Streams -/

section
variable {α : Type} [MeasurableSpace α]

def streamCons (p : α × (ℕ → α)) : ℕ → α
  | 0 => p.1
  | k + 1 => p.2 k

def streamTail (r : ℕ → α) : ℕ → α := fun k => r (k + 1)

theorem measurable_streamCons : Measurable (streamCons (α := α)) := by
  rw [measurable_pi_iff]
  intro k
  cases k with
  | zero => exact measurable_fst
  | succ k => exact (measurable_pi_apply k).comp measurable_snd

theorem measurable_streamTail : Measurable (streamTail (α := α)) := by unfold streamTail; fun_prop

theorem stream_cons (ν : Measure α) [IsProbabilityMeasure ν] :
    (ν.prod (Measure.infinitePi fun _ : ℕ => ν)).map streamCons = Measure.infinitePi fun _ : ℕ => ν := by
  apply Measure.eq_infinitePi
  intro s t ht
  rw [Measure.map_apply measurable_streamCons (MeasurableSet.pi s.countable_toSet fun i _ => ht i)]
  classical
  let s' : Finset ℕ := s.preimage Nat.succ (Nat.succ_injective.injOn)
  have hs : streamCons ⁻¹' (Set.pi s t) = (if 0 ∈ s then t 0 else Set.univ) ×ˢ (Set.pi s' fun i => t (i + 1)) := by
    ext ⟨a, r⟩
    simp only [Set.mem_preimage, Set.mem_pi, Finset.mem_coe, Set.mem_prod]
    constructor
    · intro h
      refine ⟨?_, fun i hi => h (i + 1) (by simpa [s'] using hi)⟩
      split_ifs with h0
      · exact h 0 h0
      · trivial
    · rintro ⟨h0, h1⟩ i hi
      cases i with
      | zero => rw [if_pos hi] at h0; exact h0
      | succ i => exact h1 i (by simpa [s'] using hi)
  rw [hs, Measure.prod_prod, Measure.infinitePi_pi _ fun i _ => ht (i + 1)]
  have hprod : ∏ i ∈ s', ν (t (i + 1)) = ∏ i ∈ s.erase 0, ν (t i) := by
    refine Finset.prod_bij (fun i _ => i + 1) ?_ ?_ ?_ ?_
    · intro i hi; simpa [s'] using hi
    · intro i _ j _ h; simpa using h
    · intro i hi
      obtain ⟨h0, hi⟩ := Finset.mem_erase.1 hi
      exact ⟨i - 1, by simp only [s', Finset.mem_preimage, Nat.succ_eq_add_one]; rw [Nat.sub_add_cancel (by omega)]; exact hi, by omega⟩
    · intro i _; rfl
  rw [hprod]
  split_ifs with h0
  · rw [Finset.mul_prod_erase s (fun i => ν (t i)) h0]
  · rw [measure_univ, one_mul, Finset.erase_eq_of_notMem h0]

theorem stream_split (ν : Measure α) [IsProbabilityMeasure ν] :
    MeasurePreserving (fun r : ℕ → α => (r 0, streamTail r)) (Measure.infinitePi fun _ : ℕ => ν)
      (ν.prod (Measure.infinitePi fun _ : ℕ => ν)) := by
  have hm : Measurable (fun r : ℕ → α => (r 0, streamTail r)) := (measurable_pi_apply 0).prodMk measurable_streamTail
  refine ⟨hm, ?_⟩
  conv_lhs => rw [← stream_cons ν]
  rw [Measure.map_map hm measurable_streamCons]
  have : (fun r : ℕ → α => (r 0, streamTail r)) ∘ streamCons = id := by
    funext ⟨a, r⟩; rfl
  rw [this, Measure.map_id]

end

section
variable {α β γ : Type} [MeasurableSpace α] [MeasurableSpace β] [MeasurableSpace γ]

theorem split_right {h : β → γ} {t : β → β} {ν : Measure γ} {μ : Measure β} [IsProbabilityMeasure ν] [IsProbabilityMeasure μ]
    (hf : MeasurePreserving (fun b => (h b, t b)) μ (ν.prod μ)) (κ : Measure α) [IsProbabilityMeasure κ] :
    MeasurePreserving (fun p : α × β => (h p.2, (p.1, t p.2))) (κ.prod μ) (ν.prod (κ.prod μ)) := by
  have h1 := (MeasurePreserving.id κ).prod hf
  have h2 : MeasurePreserving (fun p : α × (γ × β) => ((p.1, p.2.1), p.2.2)) (κ.prod (ν.prod μ)) ((κ.prod ν).prod μ) :=
    (measurePreserving_prodAssoc κ ν μ).symm
  have h3 := (Measure.measurePreserving_swap (μ := κ) (ν := ν)).prod (MeasurePreserving.id μ)
  have h4 := measurePreserving_prodAssoc ν κ μ
  exact h4.comp (h3.comp (h2.comp h1))

theorem split_left {h : β → γ} {t : β → β} {ν : Measure γ} {μ : Measure β} [IsProbabilityMeasure ν] [IsProbabilityMeasure μ]
    (hf : MeasurePreserving (fun b => (h b, t b)) μ (ν.prod μ)) (κ : Measure α) [IsProbabilityMeasure κ] :
    MeasurePreserving (fun p : β × α => (h p.1, (t p.1, p.2))) (μ.prod κ) (ν.prod (μ.prod κ)) := by
  have h1 := hf.prod (MeasurePreserving.id κ)
  exact (measurePreserving_prodAssoc ν μ κ).comp h1

end

/-! ## Drawing a sign, a number, a real -/

def dropSign (ω : Draws) : Draws := (streamTail ω.1, ω.2)
def dropInt (ω : Draws) : Draws := (ω.1, (streamTail ω.2.1, ω.2.2))
def dropReal (ω : Draws) : Draws := (ω.1, (ω.2.1, streamTail ω.2.2))

section
variable (n : ℕ) [NeZero n]

theorem split_sign : MeasurePreserving (fun ω : Draws => (ω.1 0, dropSign ω)) (draws n) (coin.prod (draws n)) :=
  split_left (h := fun s : ℕ → Bool => s 0) (stream_split coin) _

theorem split_int : MeasurePreserving (fun ω : Draws => (ω.2.1 0, dropInt ω)) (draws n) ((die n).prod (draws n)) :=
  split_right (split_left (h := fun s : ℕ → ℕ => s 0) (stream_split (die n)) randoms) _

theorem split_real : MeasurePreserving (fun ω : Draws => (ω.2.2 0, dropReal ω)) (draws n) (uniform.prod (draws n)) :=
  split_right (split_right (h := fun s : ℕ → ℝ => s 0) (stream_split uniform) _) _

theorem sign_event (b : Bool) {B : Set Draws} (hB : MeasurableSet B) :
    MeasurableSet {ω : Draws | ω.1 0 = b ∧ dropSign ω ∈ B} ∧
      (draws n).real {ω : Draws | ω.1 0 = b ∧ dropSign ω ∈ B} = 1 / 2 * (draws n).real B := by
  have hs := split_sign n
  have hm : MeasurableSet (({b} : Set Bool) ×ˢ B) := (MeasurableSet.of_discrete).prod hB
  have e : {ω : Draws | ω.1 0 = b ∧ dropSign ω ∈ B} = (fun ω : Draws => (ω.1 0, dropSign ω)) ⁻¹' (({b} : Set Bool) ×ˢ B) := rfl
  rw [e]
  refine ⟨hs.measurable hm, ?_⟩
  rw [measureReal_def, hs.measure_preimage hm.nullMeasurableSet, Measure.prod_prod, ENNReal.toReal_mul, ← measureReal_def, ← measureReal_def]
  congr 1
  rw [measureReal_def]
  cases b <;> simp [coin]

theorem int_event {B : ℕ → Set Draws} (hB : ∀ x, MeasurableSet (B x)) :
    MeasurableSet {ω : Draws | dropInt ω ∈ B (ω.2.1 0)} ∧
      (draws n).real {ω : Draws | dropInt ω ∈ B (ω.2.1 0)} = ∑ x ∈ Finset.range n, (1 / n : ℝ) * (draws n).real (B x) := by
  have hs := split_int n
  have hm : MeasurableSet {p : ℕ × Draws | p.2 ∈ B p.1} := by
    have : {p : ℕ × Draws | p.2 ∈ B p.1} = ⋃ x : ℕ, ({x} : Set ℕ) ×ˢ B x := by
      ext ⟨x, ω⟩; simp
    rw [this]
    exact MeasurableSet.iUnion fun x => (MeasurableSet.of_discrete).prod (hB x)
  have e : {ω : Draws | dropInt ω ∈ B (ω.2.1 0)} = (fun ω : Draws => (ω.2.1 0, dropInt ω)) ⁻¹' {p : ℕ × Draws | p.2 ∈ B p.1} := rfl
  rw [e]
  refine ⟨hs.measurable hm, ?_⟩
  rw [measureReal_def, hs.measure_preimage hm.nullMeasurableSet, Measure.prod_apply hm, die, lintegral_smul_measure,
    lintegral_finset_sum_measure]
  simp only [lintegral_dirac, smul_eq_mul]
  rw [ENNReal.toReal_mul, ENNReal.toReal_sum (fun x _ => measure_ne_top _ _), Finset.mul_sum]
  refine Finset.sum_congr rfl fun x _ => ?_
  rw [ENNReal.toReal_inv, ENNReal.toReal_natCast, one_div]
  rfl

theorem real_event {p : ℝ} (h0 : 0 ≤ p) (h1 : p ≤ 1) {B C : Set Draws} (hB : MeasurableSet B) (hC : MeasurableSet C) :
    MeasurableSet {ω : Draws | if ω.2.2 0 < p then dropReal ω ∈ B else dropReal ω ∈ C} ∧
      (draws n).real {ω : Draws | if ω.2.2 0 < p then dropReal ω ∈ B else dropReal ω ∈ C} =
        p * (draws n).real B + (1 - p) * (draws n).real C := by
  have hs := split_real n
  have hmB : MeasurableSet ({x : ℝ | x < p} ×ˢ B) := (measurableSet_Iio).prod hB
  have hmC : MeasurableSet ({x : ℝ | ¬ x < p} ×ˢ C) := (measurableSet_Iio.compl).prod hC
  have e : {ω : Draws | if ω.2.2 0 < p then dropReal ω ∈ B else dropReal ω ∈ C} =
      (fun ω : Draws => (ω.2.2 0, dropReal ω)) ⁻¹' ({x : ℝ | x < p} ×ˢ B) ∪
        (fun ω : Draws => (ω.2.2 0, dropReal ω)) ⁻¹' ({x : ℝ | ¬ x < p} ×ˢ C) := by
    ext ω
    by_cases h : ω.2.2 0 < p
    · simp [h]
    · have h' := not_lt.1 h
      simp [h, h']
  rw [e]
  refine ⟨(hs.measurable hmB).union (hs.measurable hmC), ?_⟩
  rw [measureReal_union ?_ (hs.measurable hmC)]
  · rw [measureReal_def, measureReal_def, hs.measure_preimage hmB.nullMeasurableSet, hs.measure_preimage hmC.nullMeasurableSet,
      Measure.prod_prod, Measure.prod_prod, uniform_lt h0 h1, uniform_ge h0 h1, ENNReal.toReal_mul, ENNReal.toReal_mul,
      ENNReal.toReal_ofReal h0, ENNReal.toReal_ofReal (sub_nonneg.2 h1)]
    rfl
  · rw [Set.disjoint_left]
    rintro ω ⟨h, _⟩ ⟨h', _⟩
    exact h' h

end

/-! ## Steps, sweeps and temperatures -/

/-- The draws as the model's streams. -/
def toRand (ω : Draws) : Rand := ⟨ω.1, ω.2.1, ω.2.2⟩

/-- The streams as draws. -/
def ofRand (r : Rand) : Draws := (r.signs, (r.ints, r.reals))

/-- The assignment of a row of `n` spins. -/
def cfin (n : ℕ) (q : NpInts) : Fin n → Bool := fun i => decide (q.ent i = 1)

theorem cfin_flip (n : ℕ) (q : NpInts) (hd : q.dim = n) (hs : IsSpins q) (x : Fin n) :
    cfin n (q.flip x) = flipOne (cfin n q) x := by
  funext i
  by_cases hi : i = x
  · subst hi
    rcases hs i (by omega) with h | h <;> simp [cfin, flipOne, NpInts.flip, h]
  · have : (i : ℕ) ≠ x := fun h => hi (Fin.ext h)
    simp [cfin, flipOne, NpInts.flip, hi, this]

section
variable (n : ℕ) [NeZero n]

/-- Events that depend on a row of spins: measurable, with a probability that depends on the assignment only. -/
def GoodEvents (B : NpInts → Set Draws) (m : (Fin n → Bool) → ℝ) : Prop :=
  ∀ q, q.dim = n → IsSpins q → MeasurableSet (B q) ∧ (draws n).real (B q) = m (cfin n q)

variable {n}

theorem step_law (J : NpMat) (ep : ℝ) (E : (Fin n → Bool) → ℝ)
    (hE : ∀ q : NpInts, q.dim = n → IsSpins q → isingEnergy n J.ent (fun i => (q.ent i : ℝ)) + ep = E (cfin n q))
    (T : ℝ) (hT : 0 < T) (q : NpInts) (hd : q.dim = n) (hs : IsSpins q) (x : Fin n) (B : NpInts → Set Draws)
    (hB1 : MeasurableSet (B (q.flip x))) (hB2 : MeasurableSet (B q)) :
    MeasurableSet {ω | ofRand (saStep (reJ J) T (q, toRand ω) x).2 ∈ B (saStep (reJ J) T (q, toRand ω) x).1} ∧
      (draws n).real {ω | ofRand (saStep (reJ J) T (q, toRand ω) x).2 ∈ B (saStep (reJ J) T (q, toRand ω) x).1} =
        acceptProb E T (cfin n q) (flipOne (cfin n q) x) * (draws n).real (B (q.flip x)) +
          (1 - acceptProb E T (cfin n q) (flipOne (cfin n q) x)) * (draws n).real (B q) := by
  have hx' : (x : ℕ) < q.dim := by omega
  have e : saDelta (reJ J) q x = E (flipOne (cfin n q) x) - E (cfin n q) := by
    rw [C49_delta J q x hx', ← cfin_flip n q hd hs x, ← hE q hd hs, ← hE (q.flip x) hd (isSpins_flip q x hs), hd]
    ring
  simp only [saStep, accept, e]
  generalize E (flipOne (cfin n q) x) - E (cfin n q) = Δ at *
  have ha : acceptProb E T (cfin n q) (flipOne (cfin n q) x) = min 1 (Real.exp (-saDelta (reJ J) q x / T)) := by
    rw [acceptProb, C49_delta J q x hx', ← cfin_flip n q hd hs x, ← hE q hd hs, ← hE (q.flip x) hd (isSpins_flip q x hs), hd]
    congr 3
    ring
  rw [ha, e]
  by_cases hΔ : Δ < 0
  · have h1 : min 1 (Real.exp (-Δ / T)) = 1 := min_eq_left (by
      rw [← Real.exp_zero, Real.exp_le_exp]
      exact div_nonneg (by linarith) hT.le)
    have h2 : {ω : Draws | ofRand (if Δ < 0 then toRand ω else (toRand ω).real.2) ∈
        B (if Δ < 0 ∨ Real.exp (-Δ / T) > (toRand ω).real.1 then q.flip x else q)} = B (q.flip x) := by
      ext ω
      simp only [hΔ, true_or, if_true, Set.mem_setOf_eq]
      rfl
    rw [h1, h2]
    exact ⟨hB1, by ring⟩
  · have h1 : min 1 (Real.exp (-Δ / T)) = Real.exp (-Δ / T) := min_eq_right (by
      rw [← Real.exp_zero, Real.exp_le_exp]
      exact div_nonpos_of_nonpos_of_nonneg (by linarith) hT.le)
    have h2 : {ω : Draws | ofRand (if Δ < 0 then toRand ω else (toRand ω).real.2) ∈
        B (if Δ < 0 ∨ Real.exp (-Δ / T) > (toRand ω).real.1 then q.flip x else q)} =
        {ω : Draws | if ω.2.2 0 < Real.exp (-Δ / T) then dropReal ω ∈ B (q.flip x) else dropReal ω ∈ B q} := by
      ext ω
      simp only [hΔ, false_or, if_false, Set.mem_setOf_eq, gt_iff_lt, Rand.real, toRand]
      split_ifs <;> rfl
    rw [h1, h2]
    exact real_event n (Real.exp_pos _).le (h1 ▸ min_le_left _ _) hB1 hB2

/-- One sweep of `k` steps. -/
def sweepR (J : NpMat) (T : ℝ) (k : ℕ) (q : NpInts) (r : Rand) : NpInts × Rand :=
  (r.sites q.dim k).1.foldl (saStep J T) (q, (r.sites q.dim k).2)

theorem saStep_ints (J : NpMat) (T : ℝ) (q : NpInts) (r : Rand) (f : ℕ → ℕ) (x : ℕ) :
    saStep J T (q, { r with ints := f }) x =
      ((saStep J T (q, r) x).1, { (saStep J T (q, r) x).2 with ints := f }) := by
  simp only [saStep, accept, Rand.real]
  by_cases h : saDelta J q x < 0 <;> simp [h]

theorem saStep_keeps (J : NpMat) (T : ℝ) (q : NpInts) (r : Rand) (x : ℕ) :
    (saStep J T (q, r) x).2.ints = r.ints ∧ (saStep J T (q, r) x).1.dim = q.dim := by
  simp only [saStep, accept, Rand.real]
  constructor
  · by_cases h : saDelta J q x < 0 <;> simp [h]
  · by_cases h : saDelta J q x < 0
    · simp [h, NpInts.flip]
    · by_cases h' : Real.exp (-saDelta J q x / T) > r.reals 0 <;> simp [h, h', NpInts.flip]

theorem sweepR_succ (J : NpMat) (T : ℝ) (k : ℕ) (q : NpInts) (ω : Draws) :
    sweepR J T (k + 1) q (toRand ω) =
      sweepR J T k (saStep J T (q, toRand (dropInt ω)) (ω.2.1 0 % q.dim)).1
        (saStep J T (q, toRand (dropInt ω)) (ω.2.1 0 % q.dim)).2 := by
  obtain ⟨hi, hdim⟩ := saStep_keeps J T q (toRand (dropInt ω)) (ω.2.1 0 % q.dim)
  have h1 : ((toRand ω).sites q.dim (k + 1)).2 = { toRand (dropInt ω) with ints := fun i => ω.2.1 (i + (k + 1)) } := rfl
  have h2 : ((toRand ω).sites q.dim (k + 1)).1 = ω.2.1 0 % q.dim :: (List.range k).map (fun i => ω.2.1 (i + 1) % q.dim) := by
    simp only [Rand.sites, toRand, List.range_succ_eq_map, List.map_cons, List.map_map]
    rfl
  rw [sweepR, h1, h2, List.foldl_cons, saStep_ints]
  rw [sweepR]
  simp only [Rand.sites, hi, hdim]
  congr 2

theorem sweep_law (J : NpMat) (ep : ℝ) (E : (Fin n → Bool) → ℝ)
    (hE : ∀ q : NpInts, q.dim = n → IsSpins q → isingEnergy n J.ent (fun i => (q.ent i : ℝ)) + ep = E (cfin n q))
    (T : ℝ) (hT : 0 < T) (B : NpInts → Set Draws) (m : (Fin n → Bool) → ℝ) (hB : GoodEvents n B m) (k : ℕ) :
    GoodEvents n (fun q => {ω | ofRand (sweepR (reJ J) T k q (toRand ω)).2 ∈ B (sweepR (reJ J) T k q (toRand ω)).1})
      ((metropolisMatrix E T ^ k).mulVec m) := by
  induction k with
  | zero =>
    intro q hd hs
    rw [pow_zero, Matrix.one_mulVec]
    exact hB q hd hs
  | succ k ih =>
    intro q hd hs
    simp only [sweepR_succ]
    have hn : 0 < n := Nat.pos_of_ne_zero (NeZero.ne n)
    have hst : ∀ x : Fin n, _ := fun x => step_law J ep E hE T hT q hd hs x
      (fun q => {ω | ofRand (sweepR (reJ J) T k q (toRand ω)).2 ∈ B (sweepR (reJ J) T k q (toRand ω)).1})
      (ih (q.flip x) hd (isSpins_flip q x hs)).1 (ih q hd hs).1
    let D : ℕ → Set Draws := fun x => {ω | ofRand (sweepR (reJ J) T k (saStep (reJ J) T (q, toRand ω) (x % n)).1
      (saStep (reJ J) T (q, toRand ω) (x % n)).2).2 ∈ B (sweepR (reJ J) T k (saStep (reJ J) T (q, toRand ω) (x % n)).1
      (saStep (reJ J) T (q, toRand ω) (x % n)).2).1}
    have hD : ∀ x : Fin n, D x = {ω | ofRand (saStep (reJ J) T (q, toRand ω) x).2 ∈
        (fun q => {ω | ofRand (sweepR (reJ J) T k q (toRand ω)).2 ∈ B (sweepR (reJ J) T k q (toRand ω)).1})
          (saStep (reJ J) T (q, toRand ω) x).1} := by
      intro x
      ext ω
      simp only [D, Nat.mod_eq_of_lt x.2, Set.mem_setOf_eq]
      rfl
    have hDm : ∀ x, MeasurableSet (D x) := by
      intro x
      have h1 := (hst ⟨x % n, Nat.mod_lt _ hn⟩).1
      have h2 : D x = D (⟨x % n, Nat.mod_lt _ hn⟩ : Fin n) := by simp only [D, Nat.mod_mod]
      rw [h2, hD]
      exact h1
    have hint := int_event n hDm
    have hset : {ω : Draws | ofRand (sweepR (reJ J) T k (saStep (reJ J) T (q, toRand (dropInt ω)) (ω.2.1 0 % q.dim)).1
        (saStep (reJ J) T (q, toRand (dropInt ω)) (ω.2.1 0 % q.dim)).2).2 ∈
        B (sweepR (reJ J) T k (saStep (reJ J) T (q, toRand (dropInt ω)) (ω.2.1 0 % q.dim)).1
        (saStep (reJ J) T (q, toRand (dropInt ω)) (ω.2.1 0 % q.dim)).2).1} = {ω : Draws | dropInt ω ∈ D (ω.2.1 0)} := by
      ext ω
      simp only [D, hd, Set.mem_setOf_eq]
    rw [hset]
    refine ⟨hint.1, ?_⟩
    rw [hint.2, Finset.sum_range]
    have hx : ∀ x : Fin n, (draws n).real (D x) =
        acceptProb E T (cfin n q) (flipOne (cfin n q) x) * (metropolisMatrix E T ^ k).mulVec m (flipOne (cfin n q) x) +
          (1 - acceptProb E T (cfin n q) (flipOne (cfin n q) x)) * (metropolisMatrix E T ^ k).mulVec m (cfin n q) := by
      intro x
      rw [hD, (hst x).2, (ih (q.flip x) hd (isSpins_flip q x hs)).2, (ih q hd hs).2, cfin_flip n q hd hs x]
    simp only [hx]
    rw [pow_succ', ← Matrix.mulVec_mulVec]
    generalize (metropolisMatrix E T ^ k).mulVec m = v
    simp only [Matrix.mulVec, dotProduct, metropolisMatrix, Finset.sum_mul, Fintype.card_fin]
    rw [Finset.sum_comm]
    refine Finset.sum_congr rfl fun x _ => ?_
    simp only [mul_assoc, add_mul, ite_mul, zero_mul, ← Finset.mul_sum, Finset.sum_add_distrib, Finset.sum_ite_eq', Finset.mem_univ,
      if_true]

/-- The run from these spins ends with spins and streams in `B`. -/
def loopEv (J JU : NpMat) (ep R target : ℝ) (ite fuel : ℕ) (T : ℝ) (q : NpInts) (r : Rand) (es : List ℝ)
    (B : NpInts → Set Draws) : Prop :=
  ∃ q' r' es', saLoop J JU ep R target ite fuel T q r es = some (q', r', es') ∧ ofRand r' ∈ B q'

theorem loopEv_es (J JU : NpMat) (ep R target : ℝ) (ite : ℕ) (B : NpInts → Set Draws) : ∀ (fuel : ℕ) (T : ℝ) (q : NpInts)
    (r : Rand) (es es2 : List ℝ), loopEv J JU ep R target ite fuel T q r es B → loopEv J JU ep R target ite fuel T q r es2 B := by
  intro fuel
  induction fuel with
  | zero =>
    rintro T q r es es2 ⟨q', r', es', h, hB⟩
    rw [saLoop] at h
    by_cases hT : T > target
    · simp [hT] at h
    · rw [if_neg hT] at h
      cases h
      exact ⟨_, _, es2, by rw [saLoop, if_neg hT], hB⟩
  | succ fuel ih =>
    rintro T q r es es2 ⟨q', r', es', h, hB⟩
    rw [saLoop] at h
    by_cases hT : T > target
    · rw [if_pos hT] at h
      rw [loopEv, saLoop, if_pos hT]
      exact ih _ _ _ _ _ ⟨q', r', es', h, hB⟩
    · rw [if_neg hT] at h
      cases h
      exact ⟨_, _, es2, by rw [saLoop, if_neg hT], hB⟩

theorem loopEv_step (J JU : NpMat) (ep R target : ℝ) (ite : ℕ) (B : NpInts → Set Draws) (fuel : ℕ) (T : ℝ) (hT : T > target)
    (q : NpInts) (r : Rand) : loopEv J JU ep R target ite (fuel + 1) T q r [] B ↔
      loopEv J JU ep R target ite fuel (T * R) (sweepR J T ite q r).1 (sweepR J T ite q r).2 [] B := by
  rw [loopEv, saLoop, if_pos hT]
  exact ⟨fun h => loopEv_es J JU ep R target ite B _ _ _ _ _ _ h, fun h => loopEv_es J JU ep R target ite B _ _ _ _ _ _ h⟩

theorem loopEv_stop (J JU : NpMat) (ep R target : ℝ) (ite : ℕ) (B : NpInts → Set Draws) (fuel : ℕ) (T : ℝ) (hT : ¬ T > target)
    (q : NpInts) (r : Rand) (es : List ℝ) : loopEv J JU ep R target ite fuel T q r es B ↔ ofRand r ∈ B q := by
  have e : saLoop J JU ep R target ite fuel T q r es = some (q, r, es) := by
    cases fuel <;> rw [saLoop, if_neg hT]
  rw [loopEv, e]
  constructor
  · rintro ⟨q', r', es', h, hB⟩
    cases h
    exact hB
  · exact fun h => ⟨_, _, _, rfl, h⟩

theorem loop_law (J : NpMat) (ep : ℝ) (E : (Fin n → Bool) → ℝ)
    (hE : ∀ q : NpInts, q.dim = n → IsSpins q → isingEnergy n J.ent (fun i => (q.ent i : ℝ)) + ep = E (cfin n q))
    (R target : ℝ) (ite : ℕ) (B : NpInts → Set Draws) (m : (Fin n → Bool) → ℝ) (hB : GoodEvents n B m)
    {T : ℝ} {ts : List ℝ} (h : Schedule R target T ts) : (∀ t ∈ ts, 0 < t) → ∀ fuel, ts.length ≤ fuel →
    GoodEvents n (fun q => {ω | loopEv (reJ J) J ep R target ite fuel T q (toRand ω) [] B}) ((annealMatrix (metropolisMatrix E) ite ts).mulVec m) := by
  induction h with
  | @stop T hT =>
    intro _ fuel _ q hd hs
    simp only [loopEv_stop _ _ _ _ _ _ _ _ _ hT, annealMatrix, Matrix.one_mulVec]
    exact hB q hd hs
  | @step T ts hT _ ih =>
    intro hp fuel hf
    obtain ⟨fuel, rfl⟩ : ∃ f, fuel = f + 1 := ⟨fuel - 1, by simp only [List.length_cons] at hf; omega⟩
    have h1 := ih (fun t ht => hp t (by simp [ht])) fuel (by simpa using hf)
    have h2 := sweep_law J ep E hE T (hp T (by simp)) _ _ h1 ite
    rw [annealMatrix, ← Matrix.mulVec_mulVec]
    simp only [loopEv_step _ _ _ _ _ _ _ _ _ hT]
    exact h2

/-! ## The random start -/

def dropSigns (k : ℕ) (ω : Draws) : Draws := (fun i => ω.1 (i + k), ω.2)

theorem signs_event (k : ℕ) : ∀ (c : ℕ → Bool) {B : Set Draws}, MeasurableSet B →
    MeasurableSet {ω : Draws | (∀ i < k, ω.1 i = c i) ∧ dropSigns k ω ∈ B} ∧
      (draws n).real {ω : Draws | (∀ i < k, ω.1 i = c i) ∧ dropSigns k ω ∈ B} = (1 / 2) ^ k * (draws n).real B := by
  induction k with
  | zero =>
    intro c B hB
    have : {ω : Draws | (∀ i < 0, ω.1 i = c i) ∧ dropSigns 0 ω ∈ B} = B := by
      ext ω
      simp [dropSigns]
    rw [this]
    exact ⟨hB, by simp⟩
  | succ k ih =>
    intro c B hB
    have h1 := ih (fun i => c (i + 1)) hB
    have h2 := sign_event n (c 0) h1.1
    have : {ω : Draws | (∀ i < k + 1, ω.1 i = c i) ∧ dropSigns (k + 1) ω ∈ B} =
        {ω : Draws | ω.1 0 = c 0 ∧ dropSign ω ∈ {ω : Draws | (∀ i < k, ω.1 i = c (i + 1)) ∧ dropSigns k ω ∈ B}} := by
      ext ω
      have e : dropSigns k (dropSign ω) = dropSigns (k + 1) ω := by
        simp only [dropSigns, dropSign, streamTail, add_assoc]
      simp only [Set.mem_setOf_eq, e, ← and_assoc, and_congr_left_iff]
      intro _
      constructor
      · exact fun h => ⟨h 0 (by omega), fun i hi => h (i + 1) (by omega)⟩
      · rintro ⟨h0, h⟩ i hi
        cases i with
        | zero => exact h0
        | succ i => exact h i (by omega)
    rw [this]
    refine ⟨h2.1, ?_⟩
    rw [h2.2, h1.2, pow_succ]
    ring

/-- Rows with the same entries. -/
def SameRow (q q' : NpInts) : Prop := q.dim = q'.dim ∧ ∀ i < q.dim, q.ent i = q'.ent i

theorem same_flip {q q' : NpInts} (h : SameRow q q') (x : ℕ) : SameRow (q.flip x) (q'.flip x) := by
  refine ⟨h.1, fun i hi => ?_⟩
  simp only [NpInts.flip, h.2 i hi]

theorem same_delta (J : NpMat) {q q' : NpInts} (h : SameRow q q') (x : ℕ) (hx : x < q.dim) : saDelta J q x = saDelta J q' x := by
  simp only [saDelta, ← h.1]
  congr 2
  refine List.map_congr_left fun j hj => ?_
  rw [h.2 j (List.mem_range.1 hj), h.2 x hx]

theorem same_step (J : NpMat) (T : ℝ) {q q' : NpInts} (h : SameRow q q') (r : Rand) (x : ℕ) (hx : x < q.dim) :
    SameRow (saStep J T (q, r) x).1 (saStep J T (q', r) x).1 ∧ (saStep J T (q, r) x).2 = (saStep J T (q', r) x).2 := by
  simp only [saStep, same_delta J h x hx, and_true]
  by_cases ha : (accept (saDelta J q' x) T r).1
  · rw [if_pos ha, if_pos (same_delta J h x hx ▸ ha)]
    exact same_flip h x
  · rw [if_neg ha, if_neg (same_delta J h x hx ▸ ha)]
    exact h

theorem same_fold (J : NpMat) (T : ℝ) : ∀ (xs : List ℕ) {q q' : NpInts} (h : SameRow q q') (r : Rand), (∀ x ∈ xs, x < q.dim) →
    SameRow (xs.foldl (saStep J T) (q, r)).1 (xs.foldl (saStep J T) (q', r)).1 ∧
      (xs.foldl (saStep J T) (q, r)).2 = (xs.foldl (saStep J T) (q', r)).2
  | [], _, _, h, _, _ => ⟨h, rfl⟩
  | x :: xs, q, q', h, r, hx => by
    have h1 := same_step J T h r x (hx x (by simp))
    simp only [List.foldl_cons]
    have h2 := same_fold J T xs h1.1 (saStep J T (q, r) x).2 (fun y hy => by
      rw [(saStep_keeps J T q r x).2]; exact hx y (by simp [hy]))
    rw [show saStep J T (q', r) x = ((saStep J T (q', r) x).1, (saStep J T (q, r) x).2) from by rw [h1.2]]
    exact h2

theorem same_loop (J JU : NpMat) (ep R target : ℝ) (ite : ℕ) (B : NpInts → Set Draws)
    (hB : ∀ q q', SameRow q q' → B q = B q') : ∀ (fuel : ℕ) (T : ℝ) (q q' : NpInts) (r : Rand), 0 < q.dim → SameRow q q' →
      (loopEv J JU ep R target ite fuel T q r [] B ↔ loopEv J JU ep R target ite fuel T q' r [] B) := by
  intro fuel
  induction fuel with
  | zero =>
    intro T q q' r hd h
    by_cases hT : T > target
    · simp [loopEv, saLoop, hT]
    · rw [loopEv_stop _ _ _ _ _ _ _ _ _ hT, loopEv_stop _ _ _ _ _ _ _ _ _ hT, hB q q' h]
  | succ fuel ih =>
    intro T q q' r hd h
    by_cases hT : T > target
    · rw [loopEv_step _ _ _ _ _ _ _ _ _ hT, loopEv_step _ _ _ _ _ _ _ _ _ hT]
      have hx : ∀ x ∈ (r.sites q.dim ite).1, x < q.dim := by
        intro x hx
        simp only [Rand.sites, List.mem_map, List.mem_range] at hx
        obtain ⟨i, hi, rfl⟩ := hx
        exact Nat.mod_lt _ hd
      have h1 := same_fold J T _ h (r.sites q.dim ite).2 hx
      have h2 : ∀ (xs : List ℕ) (q : NpInts) (r : Rand), (xs.foldl (saStep J T) (q, r)).1.dim = q.dim := by
        intro xs
        induction xs with
        | nil => intro q r; rfl
        | cons x xs ih =>
          intro q r
          rw [List.foldl_cons]
          exact (ih _ _).trans (saStep_keeps J T q r x).2
      have e1 : (sweepR J T ite q r).2 = (sweepR J T ite q' r).2 := by
        simp only [sweepR, ← h.1]; exact h1.2
      rw [← e1]
      refine ih _ _ _ _ ?_ ?_
      · rw [sweepR, h2]; exact hd
      · simp only [sweepR, ← h.1]; exact h1.1
    · rw [loopEv_stop _ _ _ _ _ _ _ _ _ hT, loopEv_stop _ _ _ _ _ _ _ _ _ hT, hB q q' h]

/-- The row of an assignment. -/
def rowOf (c : Fin n → Bool) : NpInts := ⟨n, fun i => if h : i < n then if c ⟨i, h⟩ then 1 else -1 else -1⟩

theorem rowOf_spins (c : Fin n → Bool) : IsSpins (rowOf c) := by
  intro i hi
  have hi' : i < n := hi
  simp only [rowOf, dif_pos hi']
  split_ifs
  · exact .inl rfl
  · exact .inr rfl

theorem cfin_rowOf (c : Fin n → Bool) : cfin n (rowOf c) = c := by
  funext i
  simp only [cfin, rowOf, i.2, dif_pos, Fin.eta]
  cases c i <;> simp

theorem start_law (B : NpInts → Set Draws) (hS : ∀ q q', q.dim = n → SameRow q q' → B q = B q') (m : (Fin n → Bool) → ℝ)
    (hB : GoodEvents n B m) :
    MeasurableSet {ω | ofRand ((toRand ω).spins n).2 ∈ B ((toRand ω).spins n).1} ∧
    (draws n).real {ω | ofRand ((toRand ω).spins n).2 ∈ B ((toRand ω).spins n).1} = (1 / 2) ^ n * ∑ c, m c := by
  have hev := fun c : Fin n → Bool => signs_event (n := n) n (fun i => if h : i < n then c ⟨i, h⟩ else false)
    (hB (rowOf c) rfl (rowOf_spins c)).1
  have e : {ω | ofRand ((toRand ω).spins n).2 ∈ B ((toRand ω).spins n).1} = ⋃ c ∈ (Finset.univ : Finset (Fin n → Bool)),
      {ω : Draws | (∀ i < n, ω.1 i = if h : i < n then c ⟨i, h⟩ else false) ∧ dropSigns n ω ∈ B (rowOf c)} := by
    ext ω
    have hrow : ∀ c : Fin n → Bool, (∀ i < n, ω.1 i = if h : i < n then c ⟨i, h⟩ else false) →
        B ((toRand ω).spins n).1 = B (rowOf c) := by
      intro c hc
      refine hS _ _ rfl ⟨rfl, fun i hi => ?_⟩
      have hi' : i < n := hi
      have := hc i hi'
      rw [dif_pos hi'] at this
      simp only [Rand.spins, toRand, rowOf, dif_pos hi', this]
    simp only [Set.mem_iUnion, Set.mem_setOf_eq, Finset.mem_univ, exists_prop, true_and]
    constructor
    · intro h
      have hc : ∀ i < n, ω.1 i = if h : i < n then (fun j : Fin n => ω.1 j) ⟨i, h⟩ else false := by
        intro i hi
        rw [dif_pos hi]
      exact ⟨fun j => ω.1 j, hc, hrow (fun j => ω.1 j) hc ▸ h⟩
    · rintro ⟨c, hc, h⟩
      rw [hrow c hc]
      exact h
  rw [e]
  refine ⟨Finset.measurableSet_biUnion _ fun c _ => (hev c).1, ?_⟩
  rw [measureReal_biUnion_finset]
  · rw [Finset.mul_sum]
    refine Finset.sum_congr rfl fun c _ => ?_
    rw [(hev c).2, (hB (rowOf c) rfl (rowOf_spins c)).2, cfin_rowOf]
  · intro c _ c' _ hne
    rw [Function.onFun, Set.disjoint_left]
    rintro ω ⟨h1, -⟩ ⟨h2, -⟩
    refine hne (funext fun i => ?_)
    have a := h1 i i.2
    have b := h2 i i.2
    rw [dif_pos i.2] at a b
    rw [← a, ← b]
  · exact fun c _ => (hev c).1

end

end

end Blueqat
