import Verif.Spec.Born
import Verif.NormLemmas
import Verif.FallbackGates
import Mathlib.MeasureTheory.Measure.Prod

/-!
# Independent random numbers, and the law of one shot
-/

set_option linter.unusedSimpArgs false
set_option linter.unusedVariables false

namespace Blueqat

open Spec MeasureTheory

noncomputable section

/-! ## Drawing one random number -/

/-- The random numbers after the first. -/
def shift (r : ℕ → ℝ) : ℕ → ℝ := fun k => r (k + 1)

/-- A first random number and the others. -/
def consR (p : ℝ × (ℕ → ℝ)) : ℕ → ℝ
  | 0 => p.1
  | k + 1 => p.2 k

theorem measurable_shift : Measurable shift := by unfold shift; fun_prop

theorem measurable_consR : Measurable consR := by
  rw [measurable_pi_iff]
  intro k
  cases k with
  | zero => exact measurable_fst
  | succ k => exact (measurable_pi_apply k).comp measurable_snd

theorem randoms_cons : (uniform.prod randoms).map consR = randoms := by
  apply Measure.eq_infinitePi
  intro s t ht
  rw [Measure.map_apply measurable_consR (MeasurableSet.pi s.countable_toSet fun i _ => ht i)]
  classical
  let s' : Finset ℕ := s.preimage Nat.succ (Nat.succ_injective.injOn)
  have hs : consR ⁻¹' (Set.pi s t) = (if 0 ∈ s then t 0 else Set.univ) ×ˢ (Set.pi s' fun i => t (i + 1)) := by
    ext ⟨a, r⟩
    simp only [Set.mem_preimage, Set.mem_pi, Finset.mem_coe, Set.mem_prod]
    constructor
    · intro h
      refine ⟨?_, fun i hi => h (i + 1) (by simpa [s'] using hi)⟩
      split_ifs with h0
      · exact h 0 h0
      · trivial
    · rintro ⟨h0, h1⟩ i hi
      cases i with
      | zero => rw [if_pos hi] at h0; exact h0
      | succ i => exact h1 i (by simpa [s'] using hi)
  rw [hs, Measure.prod_prod, randoms, Measure.infinitePi_pi _ fun i _ => ht (i + 1)]
  have hprod : ∏ i ∈ s', uniform (t (i + 1)) = ∏ i ∈ s.erase 0, uniform (t i) := by
    refine Finset.prod_bij (fun i _ => i + 1) ?_ ?_ ?_ ?_
    · intro i hi; simpa [s'] using hi
    · intro i _ j _ h; simpa using h
    · intro i hi
      obtain ⟨h0, hi⟩ := Finset.mem_erase.1 hi
      exact ⟨i - 1, by simp only [s', Finset.mem_preimage, Nat.succ_eq_add_one]; rw [Nat.sub_add_cancel (by omega)]; exact hi, by omega⟩
    · intro i _; rfl
  rw [hprod]
  split_ifs with h0
  · rw [Finset.mul_prod_erase s (fun i => uniform (t i)) h0]
  · rw [measure_univ, one_mul, Finset.erase_eq_of_notMem h0]

/-- The first random number is independent of the others. -/
theorem randoms_first {P : Set ℝ} (hP : MeasurableSet P) {A : Set (ℕ → ℝ)} (hA : MeasurableSet A) :
    randoms {r | r 0 ∈ P ∧ shift r ∈ A} = uniform P * randoms A := by
  conv_lhs => rw [← randoms_cons]
  have hm : MeasurableSet {r : ℕ → ℝ | r 0 ∈ P ∧ shift r ∈ A} := (measurable_pi_apply 0 hP).inter (measurable_shift hA)
  rw [Measure.map_apply measurable_consR hm, ← Measure.prod_prod]
  rfl

theorem uniform_lt {p : ℝ} (h0 : 0 ≤ p) (h1 : p ≤ 1) : uniform {x | x < p} = ENNReal.ofReal p := by
  rw [uniform, Measure.restrict_apply (show MeasurableSet {x : ℝ | x < p} from measurableSet_Iio)]
  have : {x | x < p} ∩ Set.Ico 0 1 = Set.Ico 0 p := by
    ext x; simp only [Set.mem_inter_iff, Set.mem_setOf_eq, Set.mem_Ico]
    constructor
    · rintro ⟨h, h2, h3⟩; exact ⟨h2, h⟩
    · rintro ⟨h2, h⟩; exact ⟨h, h2, by linarith⟩
  rw [this, Real.volume_Ico, sub_zero]

theorem uniform_ge {p : ℝ} (h0 : 0 ≤ p) (h1 : p ≤ 1) : uniform {x | ¬ x < p} = ENNReal.ofReal (1 - p) := by
  rw [uniform, Measure.restrict_apply (show MeasurableSet {x : ℝ | ¬ x < p} from measurableSet_Iio.compl)]
  have : {x | ¬ x < p} ∩ Set.Ico 0 1 = Set.Ico p 1 := by
    ext x; simp only [Set.mem_inter_iff, Set.mem_setOf_eq, Set.mem_Ico, not_lt]
    constructor
    · rintro ⟨h, h2, h3⟩; exact ⟨h, h3⟩
    · rintro ⟨h2, h⟩; exact ⟨h2, by linarith, h⟩
  rw [this, Real.volume_Ico]

/-! ## The Born rule on state vectors -/

theorem normSqN_project (n t : ℕ) (b : Bool) (ψ : Vec) : normSqN n (project t b ψ) = prob n t b ψ := by
  rw [normSqN, prob, Finset.sum_filter]
  refine Finset.sum_congr rfl fun i _ => ?_
  by_cases h : i.testBit t = b <;> simp [project, h]

theorem project_smul (t : ℕ) (b : Bool) (z : ℂ) (ψ : Vec) : project t b (fun i => z * ψ i) = fun i => z * project t b ψ i := by
  funext i; by_cases h : i.testBit t = b <;> simp [project, h]

theorem born_unitary {n : ℕ} {e : Elem} (he : e.IsUnitary) (es : List Elem) (ψ : Vec) (creg : ℕ → Bool) (key : String) :
    born n (e :: es) ψ creg key = born n es (e.unitary phDoc ψ) creg key := by
  cases e <;> first | rfl | exact absurd he id

theorem elem_cases (e : Elem) : e.IsUnitary ∨ (∃ t, e = .meas t) ∨ ∃ t, e = .reset t := by
  cases e <;> simp [Elem.IsUnitary]

theorem normSqN_smul (n : ℕ) (z : ℂ) (ψ : Vec) : normSqN n (fun i => z * ψ i) = ‖z‖ ^ 2 * normSqN n ψ := by
  simp only [normSqN, norm_mul, mul_pow, Finset.mul_sum]

theorem born_smul (n : ℕ) (es : List Elem) (z : ℂ) (ψ : Vec) (creg : ℕ → Bool) (key : String) :
    born n es (fun i => z * ψ i) creg key = ‖z‖ ^ 2 * born n es ψ creg key := by
  induction es generalizing ψ creg with
  | nil => rw [born, born, normSqN_smul]; split_ifs <;> simp
  | cons e es ih =>
    rcases elem_cases e with he | ⟨t, rfl⟩ | ⟨t, rfl⟩
    · rw [born_unitary he, born_unitary he, elem_smul, ih]
    · rw [born, born, project_smul, project_smul, ih, ih, mul_add]
    · rw [born, born, project_smul, project_smul]
      have : app mX t (fun i => z * project t true ψ i) = fun i => z * app mX t (project t true ψ) i :=
        elem_smul phDoc (.one .x t) z _
      rw [this, ih, ih, mul_add]

theorem born_bounds {n : ℕ} {es : List Elem} (hv : ∀ e ∈ es, e.Valid n) (ψ : Vec) (creg : ℕ → Bool) (key : String) :
    0 ≤ born n es ψ creg key ∧ born n es ψ creg key ≤ normSqN n ψ := by
  have hnn : ∀ ψ, 0 ≤ normSqN n ψ := fun ψ => Finset.sum_nonneg fun i _ => by positivity
  induction es generalizing ψ creg with
  | nil => rw [born]; split_ifs <;> simp [hnn]
  | cons e es ih =>
    have ih := ih fun e he => hv e (by simp [he])
    have hve := hv e (by simp)
    rcases elem_cases e with he | ⟨t, rfl⟩ | ⟨t, rfl⟩
    · rw [born_unitary he]
      have := ih (e.unitary phDoc ψ) creg
      rwa [(isom_elem norm_phDoc e hve).norm] at this
    · rw [born, ← prob_add n t ψ, ← normSqN_project, ← normSqN_project]
      have h1 := ih (project t false ψ) (Function.update creg t false)
      have h2 := ih (project t true ψ) (Function.update creg t true)
      exact ⟨add_nonneg h1.1 h2.1, add_le_add h1.2 h2.2⟩
    · rw [born, ← prob_add n t ψ, ← normSqN_project, ← normSqN_project]
      have h1 := ih (project t false ψ) creg
      have h2 := ih (app mX t (project t true ψ)) creg
      rw [(isom_app hve unit_X).norm] at h2
      exact ⟨add_nonneg h1.1 h2.1, add_le_add h1.2 h2.2⟩

theorem collapse_eq (n t : ℕ) (b : Bool) (ψ : Vec) :
    collapse n t b ψ = fun i => ((1 / Real.sqrt (prob n t b ψ) : ℝ) : ℂ) * project t b ψ i := by
  funext i
  rw [collapse, project]
  split_ifs <;> simp [div_eq_inv_mul]

theorem born_collapse {n t : ℕ} {b : Bool} {ψ : Vec} (h : 0 < prob n t b ψ) (es : List Elem) (creg : ℕ → Bool) (key : String) :
    prob n t b ψ * born n es (collapse n t b ψ) creg key = born n es (project t b ψ) creg key := by
  rw [collapse_eq, born_smul]
  have : ‖((1 / Real.sqrt (prob n t b ψ) : ℝ) : ℂ)‖ ^ 2 = (prob n t b ψ)⁻¹ := by
    rw [Complex.norm_real, Real.norm_eq_abs, sq_abs, div_pow, one_pow, Real.sq_sqrt h.le, one_div]
  rw [this, ← mul_assoc, mul_inv_cancel₀ h.ne', one_mul]

theorem born_collapse_x {n t : ℕ} {b : Bool} {ψ : Vec} (h : 0 < prob n t b ψ) (es : List Elem) (creg : ℕ → Bool) (key : String) :
    prob n t b ψ * born n es (app mX t (collapse n t b ψ)) creg key = born n es (app mX t (project t b ψ)) creg key := by
  rw [collapse_eq]
  have hx : ∀ z : ℂ, app mX t (fun i => z * project t b ψ i) = fun i => z * app mX t (project t b ψ) i :=
    fun z => elem_smul phDoc (.one .x t) z _
  rw [hx, born_smul]
  have : ‖((1 / Real.sqrt (prob n t b ψ) : ℝ) : ℂ)‖ ^ 2 = (prob n t b ψ)⁻¹ := by
    rw [Complex.norm_real, Real.norm_eq_abs, sq_abs, div_pow, one_pow, Real.sq_sqrt h.le, one_div]
  rw [this, ← mul_assoc, mul_inv_cancel₀ h.ne', one_mul]

theorem elem_phase (e : Elem) : ∃ z : ℂ, ‖z‖ = 1 ∧ ∀ ψ, e.unitary phSim ψ = fun i => z * e.unitary phDoc ψ i := by
  have triv : ∀ U : Vec → Vec, ∃ z : ℂ, ‖z‖ = 1 ∧ ∀ ψ, U ψ = fun i => z * U ψ i := fun U => ⟨1, by simp, fun ψ => by simp⟩
  cases e with
  | two k c t =>
    cases k with
    | cu1 lam => exact ⟨phSim lam, norm_phSim lam, fun ψ => by funext i; simp [Elem.unitary, op2, phDoc]⟩
    | _ => exact triv _
  | _ => exact triv _

theorem born_phSim {n : ℕ} (e : Elem) (es : List Elem) (ψ : Vec) (creg : ℕ → Bool) (key : String) :
    born n es (e.unitary phSim ψ) creg key = born n es (e.unitary phDoc ψ) creg key := by
  obtain ⟨z, hz, h⟩ := elem_phase e
  rw [h, born_smul, hz]; simp

/-! ## The law of one shot -/

/-- Random numbers with which the operations end with the classical bits `key` and leave random numbers in `A`. -/
def shotEvent (n : ℕ) (es : List Elem) (ψ : Vec) (creg : ℕ → Bool) (key : String) (A : Set (ℕ → ℝ)) : Set (ℕ → ℝ) :=
  {r | bitString n (steps phSim n es ⟨ψ, creg, r⟩).creg = key ∧ (steps phSim n es ⟨ψ, creg, r⟩).rnd ∈ A}

theorem shotEvent_unitary {n : ℕ} {e : Elem} (he : e.IsUnitary) (es : List Elem) (ψ : Vec) (creg : ℕ → Bool) (key : String)
    (A : Set (ℕ → ℝ)) : shotEvent n (e :: es) ψ creg key A = shotEvent n es (e.unitary phSim ψ) creg key A := by
  cases e <;> first | rfl | exact absurd he id

theorem shotEvent_meas (n t : ℕ) (es : List Elem) (ψ : Vec) (creg : ℕ → Bool) (key : String) (A : Set (ℕ → ℝ)) :
    shotEvent n (.meas t :: es) ψ creg key A =
      {r | r 0 ∈ {x | x < prob n t false ψ} ∧
        shift r ∈ shotEvent n es (collapse n t false ψ) (Function.update creg t false) key A} ∪
      {r | r 0 ∈ {x | ¬ x < prob n t false ψ} ∧
        shift r ∈ shotEvent n es (collapse n t true ψ) (Function.update creg t true) key A} := by
  ext r
  have e : steps phSim n (.meas t :: es) ⟨ψ, creg, r⟩ = steps phSim n es ((Elem.meas t).step phSim n ⟨ψ, creg, r⟩) := rfl
  by_cases h : r 0 < prob n t false ψ
  · simp only [shotEvent, e, Elem.step, h, if_true, Set.mem_setOf_eq, Set.mem_union, true_and, not_true_eq_false, false_and,
      or_false]
    rfl
  · simp only [shotEvent, e, Elem.step, h, if_false, Set.mem_setOf_eq, Set.mem_union, true_and, not_false_eq_true, false_and,
      false_or]
    rfl

theorem shotEvent_reset (n t : ℕ) (es : List Elem) (ψ : Vec) (creg : ℕ → Bool) (key : String) (A : Set (ℕ → ℝ)) :
    shotEvent n (.reset t :: es) ψ creg key A =
      {r | r 0 ∈ {x | x < prob n t false ψ} ∧ shift r ∈ shotEvent n es (collapse n t false ψ) creg key A} ∪
      {r | r 0 ∈ {x | ¬ x < prob n t false ψ} ∧ shift r ∈ shotEvent n es (app mX t (collapse n t true ψ)) creg key A} := by
  ext r
  have e : steps phSim n (.reset t :: es) ⟨ψ, creg, r⟩ = steps phSim n es ((Elem.reset t).step phSim n ⟨ψ, creg, r⟩) := rfl
  by_cases h : r 0 < prob n t false ψ
  · simp only [shotEvent, e, Elem.step, h, if_true, Set.mem_setOf_eq, Set.mem_union, true_and, not_true_eq_false, false_and,
      or_false]
    rfl
  · simp only [shotEvent, e, Elem.step, h, if_false, Set.mem_setOf_eq, Set.mem_union, true_and, not_false_eq_true, false_and,
      false_or]
    rfl

theorem measurableSet_cell {P : Set ℝ} (hP : MeasurableSet P) {A : Set (ℕ → ℝ)} (hA : MeasurableSet A) :
    MeasurableSet {r : ℕ → ℝ | r 0 ∈ P ∧ shift r ∈ A} := (measurable_pi_apply 0 hP).inter (measurable_shift hA)

theorem measurableSet_shotEvent (n : ℕ) (es : List Elem) (ψ : Vec) (creg : ℕ → Bool) (key : String) {A : Set (ℕ → ℝ)}
    (hA : MeasurableSet A) : MeasurableSet (shotEvent n es ψ creg key A) := by
  induction es generalizing ψ creg with
  | nil =>
    by_cases h : bitString n creg = key
    · have : shotEvent n [] ψ creg key A = A := by ext r; simp [shotEvent, steps, h]
      rw [this]; exact hA
    · have : shotEvent n [] ψ creg key A = ∅ := by ext r; simp [shotEvent, steps, h]
      rw [this]; exact .empty
  | cons e es ih =>
    rcases elem_cases e with he | ⟨t, rfl⟩ | ⟨t, rfl⟩
    · rw [shotEvent_unitary he]; exact ih _ _
    · rw [shotEvent_meas]
      exact (measurableSet_cell measurableSet_Iio (ih _ _)).union (measurableSet_cell measurableSet_Iio.compl (ih _ _))
    · rw [shotEvent_reset]
      exact (measurableSet_cell measurableSet_Iio (ih _ _)).union (measurableSet_cell measurableSet_Iio.compl (ih _ _))

theorem measurable_lt (p : ℝ) : MeasurableSet {x : ℝ | x < p} := measurableSet_Iio
theorem measurable_ge (p : ℝ) : MeasurableSet {x : ℝ | ¬ x < p} := measurableSet_Iio.compl

/-- Two cases decided by the first random number. -/
theorem randoms_branch {p q : ℝ} (hp : 0 ≤ p) (hq : 0 ≤ q) (hpq : p + q = 1) {A B C : Set (ℕ → ℝ)} (hA : MeasurableSet A)
    (hB : MeasurableSet B) {a b : ℝ} (ha : ENNReal.ofReal p * randoms A = ENNReal.ofReal a * randoms C) (ha0 : 0 ≤ a)
    (hb : ENNReal.ofReal q * randoms B = ENNReal.ofReal b * randoms C) (hb0 : 0 ≤ b) :
    randoms ({r | r 0 ∈ {x | x < p} ∧ shift r ∈ A} ∪ {r | r 0 ∈ {x | ¬ x < p} ∧ shift r ∈ B}) =
      ENNReal.ofReal (a + b) * randoms C := by
  rw [measure_union _ (measurableSet_cell (measurable_ge p) hB)]
  · rw [randoms_first (measurable_lt p) hA, randoms_first (measurable_ge p) hB, uniform_lt hp (by linarith),
      uniform_ge hp (by linarith), show 1 - p = q by linarith, ha, hb, ENNReal.ofReal_add ha0 hb0, add_mul]
  · rw [Set.disjoint_left]
    rintro r ⟨h, -⟩ ⟨h', -⟩
    exact h' h

/-- The classical bits of a shot follow the Born rule, independently of the random numbers it leaves. -/
theorem shotEvent_law {n : ℕ} {es : List Elem} (hv : ∀ e ∈ es, e.Valid n) (ψ : Vec) (hψ : normSqN n ψ = 1) (creg : ℕ → Bool)
    (key : String) {A : Set (ℕ → ℝ)} (hA : MeasurableSet A) :
    randoms (shotEvent n es ψ creg key A) = ENNReal.ofReal (born n es ψ creg key) * randoms A := by
  induction es generalizing ψ creg with
  | nil =>
    rw [born]
    split_ifs with h
    · have : shotEvent n [] ψ creg key A = A := by ext r; simp [shotEvent, steps, h]
      rw [this, hψ]; simp
    · have : shotEvent n [] ψ creg key A = ∅ := by ext r; simp [shotEvent, steps, h]
      rw [this]; simp
  | cons e es ih =>
    have hv' : ∀ e ∈ es, e.Valid n := fun e he => hv e (by simp [he])
    have ih := ih hv'
    have hve := hv e (by simp)
    rcases elem_cases e with he | ⟨t, rfl⟩ | ⟨t, rfl⟩
    · rw [shotEvent_unitary he, ih _ (by rw [(isom_elem norm_phSim e hve).norm, hψ]), born_unitary he, born_phSim]
    · have hadd := prob_add n t ψ
      rw [hψ] at hadd
      have hb : ∀ b : Bool, ENNReal.ofReal (prob n t b ψ) *
            randoms (shotEvent n es (collapse n t b ψ) (Function.update creg t b) key A) =
          ENNReal.ofReal (born n es (project t b ψ) (Function.update creg t b) key) * randoms A := by
        intro b
        rcases (prob_nonneg n t b ψ).lt_or_eq with h | h
        · rw [ih _ (normSqN_collapse h), ← mul_assoc, ← ENNReal.ofReal_mul h.le, born_collapse h]
        · have := born_bounds hv' (project t b ψ) (Function.update creg t b) key
          rw [normSqN_project, ← h] at this
          rw [← h, le_antisymm this.2 this.1]
          simp
      rw [shotEvent_meas, born]
      exact randoms_branch (prob_nonneg ..) (prob_nonneg ..) hadd (measurableSet_shotEvent _ _ _ _ _ hA)
        (measurableSet_shotEvent _ _ _ _ _ hA) (hb false) (born_bounds hv' _ _ _).1 (hb true) (born_bounds hv' _ _ _).1
    · have hadd := prob_add n t ψ
      rw [hψ] at hadd
      have hb0 : ENNReal.ofReal (prob n t false ψ) * randoms (shotEvent n es (collapse n t false ψ) creg key A) =
          ENNReal.ofReal (born n es (project t false ψ) creg key) * randoms A := by
        rcases (prob_nonneg n t false ψ).lt_or_eq with h | h
        · rw [ih _ (normSqN_collapse h), ← mul_assoc, ← ENNReal.ofReal_mul h.le, born_collapse h]
        · have := born_bounds hv' (project t false ψ) creg key
          rw [normSqN_project, ← h] at this
          rw [← h, le_antisymm this.2 this.1]
          simp
      have hb1 : ENNReal.ofReal (prob n t true ψ) * randoms (shotEvent n es (app mX t (collapse n t true ψ)) creg key A) =
          ENNReal.ofReal (born n es (app mX t (project t true ψ)) creg key) * randoms A := by
        rcases (prob_nonneg n t true ψ).lt_or_eq with h | h
        · rw [ih _ (by rw [(isom_app hve unit_X).norm]; exact normSqN_collapse h), ← mul_assoc, ← ENNReal.ofReal_mul h.le,
            born_collapse_x h]
        · have := born_bounds hv' (app mX t (project t true ψ)) creg key
          rw [(isom_app hve unit_X).norm, normSqN_project, ← h] at this
          rw [← h, le_antisymm this.2 this.1]
          simp
      rw [shotEvent_reset, born]
      exact randoms_branch (prob_nonneg ..) (prob_nonneg ..) hadd (measurableSet_shotEvent _ _ _ _ _ hA)
        (measurableSet_shotEvent _ _ _ _ _ hA) hb0 (born_bounds hv' _ _ _).1 hb1 (born_bounds hv' _ _ _).1

end

end Blueqat
