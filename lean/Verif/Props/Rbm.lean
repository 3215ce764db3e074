import Verif.Props.Dbms
import Verif.Props.WqOpt
import Mathlib.Analysis.SpecialFunctions.Log.Deriv
import Mathlib.Analysis.SpecialFunctions.ExpDeriv
import Mathlib.Tactic.FieldSimp

/-!
# C67: restricted Boltzmann machines
-/

set_option linter.unusedSimpArgs false
set_option linter.unusedVariables false

namespace Blueqat

noncomputable section

open Spec Finset

/-- `Q_ii + Σ_j Q_ji v_j`: what `rbm_hmodel` gives to `sigm`. -/
def hiddenField (Q : ℕ → ℕ → ℝ) (v : List ℝ) (i : ℕ) : ℝ := Q i i + ∑ j ∈ range v.length, Q j i * v.getD j 0

theorem rbmHmodel_get (v : List ℝ) (m : NpMat) {i : ℕ} (h1 : v.length ≤ i) (h2 : i < m.rows) :
    (rbmHmodel v m)[i - v.length]? = some (sigm (hiddenField m.ent v i)) := by
  have hlt : i - v.length < m.rows - v.length := by omega
  have hr : (List.range' v.length (m.rows - v.length))[i - v.length]? = some i := by
    rw [List.getElem?_range' hlt]
    congr 1
    omega
  simp only [rbmHmodel, List.getElem?_map, hr, Option.map_some, Option.some.injEq]
  congr 1
  rw [foldl_sum (fun j => m.ent j i * v.getD j 0) _ (fun _ _ => rfl), list_range_sum, hiddenField]

theorem rbmHmodel_length (v : List ℝ) (m : NpMat) : (rbmHmodel v m).length = m.rows - v.length := by
  simp [rbmHmodel]

/-- The energy with clamped visible units is a constant plus the fields of the hidden units that are 1. -/
theorem energy_clamp {n : ℕ} {Q : ℕ → ℕ → ℝ} {v : List ℝ} (hv : v.length ≤ n) (hu : Uncoupled n Q v.length)
    {S : Finset ℕ} (hS : S ⊆ Ico v.length n) :
    upperEnergy n Q (clamp v S) =
      upperEnergy v.length Q (fun i => v.getD i 0) + ∑ i ∈ S, hiddenField Q v i := by
  have hvis : ∀ i ∈ range v.length, clamp v S i = v.getD i 0 := by
    intro i hi
    simp [clamp, Finset.mem_range.1 hi]
  have hhid : ∀ i ∈ Ico v.length n, clamp v S i = if i ∈ S then 1 else 0 := by
    intro i hi
    have := (Finset.mem_Ico.1 hi).1
    simp [clamp, Nat.not_lt.2 this]
  have hsplit : ∀ f : ℕ → ℝ, ∑ i ∈ range n, f i = ∑ i ∈ range v.length, f i + ∑ i ∈ Ico v.length n, f i :=
    fun f => (Finset.sum_range_add_sum_Ico f hv).symm
  rw [upperEnergy, hsplit]
  simp only [hsplit, Finset.sum_add_distrib]
  have e1 : (∑ i ∈ range v.length, ∑ j ∈ range v.length, if i ≤ j then Q i j * clamp v S i * clamp v S j else 0) =
      upperEnergy v.length Q (fun i => v.getD i 0) := by
    rw [upperEnergy]
    exact Finset.sum_congr rfl fun i hi => Finset.sum_congr rfl fun j hj => by rw [hvis i hi, hvis j hj]
  have e2 : (∑ i ∈ range v.length, ∑ j ∈ Ico v.length n, if i ≤ j then Q i j * clamp v S i * clamp v S j else 0) =
      ∑ j ∈ S, ∑ i ∈ range v.length, Q i j * v.getD i 0 := by
    rw [Finset.sum_comm]
    rw [← Finset.sum_subset hS (f := fun j => ∑ i ∈ range v.length,
      if i ≤ j then Q i j * clamp v S i * clamp v S j else 0)]
    · refine Finset.sum_congr rfl fun j hj => Finset.sum_congr rfl fun i hi => ?_
      have h1 := Finset.mem_range.1 hi
      have h2 := (Finset.mem_Ico.1 (hS hj)).1
      rw [if_pos (by omega), hvis i hi, hhid j (hS hj), if_pos hj, mul_one]
    · intro j hj hjS
      refine Finset.sum_eq_zero fun i hi => ?_
      rw [hhid j hj, if_neg hjS]
      simp
  have e3 : (∑ i ∈ Ico v.length n, ∑ j ∈ range v.length, if i ≤ j then Q i j * clamp v S i * clamp v S j else 0) = 0 := by
    refine Finset.sum_eq_zero fun i hi => Finset.sum_eq_zero fun j hj => ?_
    have h1 := Finset.mem_range.1 hj
    have h2 := (Finset.mem_Ico.1 hi).1
    rw [if_neg (by omega)]
  have e4 : (∑ i ∈ Ico v.length n, ∑ j ∈ Ico v.length n, if i ≤ j then Q i j * clamp v S i * clamp v S j else 0) =
      ∑ i ∈ S, Q i i := by
    rw [← Finset.sum_subset hS (f := fun i => ∑ j ∈ Ico v.length n,
      if i ≤ j then Q i j * clamp v S i * clamp v S j else 0)]
    · refine Finset.sum_congr rfl fun i hi => ?_
      rw [Finset.sum_eq_single i]
      · rw [if_pos le_rfl, hhid i (hS hi), if_pos hi]; ring
      · intro j hj hji
        have h1 := (Finset.mem_Ico.1 (hS hi)).1
        have h2 := (Finset.mem_Ico.1 hj).2
        split_ifs with h
        · rw [hu i j h1 (by omega) h2]; simp
        · rfl
      · intro h; exact absurd (hS hi) h
    · intro i hi hiS
      refine Finset.sum_eq_zero fun j hj => ?_
      rw [hhid i hi, if_neg hiS]
      simp
  rw [e1, e2, e3, e4]
  simp only [hiddenField, Finset.sum_add_distrib]
  ring

theorem clampedSum_pos (β : ℝ) (n : ℕ) (Q : ℕ → ℕ → ℝ) (v : List ℝ) : 0 < clampedSum β n Q v :=
  Finset.sum_pos (fun _ _ => Real.exp_pos _) ⟨∅, by simp⟩

theorem clampedMean_const (β : ℝ) (n : ℕ) (Q : ℕ → ℕ → ℝ) (v : List ℝ) (c : ℝ) (f : (ℕ → ℝ) → ℝ)
    (hf : ∀ S ⊆ Ico v.length n, f (clamp v S) = c) : clampedMean β n Q v f = c := by
  rw [clampedMean, div_eq_iff (clampedSum_pos β n Q v).ne', clampedSum, Finset.mul_sum]
  refine Finset.sum_congr rfl fun S hS => ?_
  rw [hf S (Finset.mem_powerset.1 hS), mul_comm]

theorem clampedMean_mul (β : ℝ) (n : ℕ) (Q : ℕ → ℕ → ℝ) (v : List ℝ) (c : ℝ) (f g : (ℕ → ℝ) → ℝ)
    (hf : ∀ S ⊆ Ico v.length n, f (clamp v S) = c * g (clamp v S)) :
    clampedMean β n Q v f = c * clampedMean β n Q v g := by
  rw [clampedMean, clampedMean, mul_div_assoc', Finset.mul_sum]
  congr 1
  refine Finset.sum_congr rfl fun S hS => ?_
  rw [hf S (Finset.mem_powerset.1 hS)]
  ring

/-- With weights `exp(β E)` and hidden units that are not coupled to one another, the probability that hidden unit `i` is 1 is
the logistic function of `β` times its field. -/
theorem C67_logistic (β : ℝ) (n : ℕ) (Q : ℕ → ℕ → ℝ) (v : List ℝ) (hv : v.length ≤ n) (hu : Uncoupled n Q v.length) (i : ℕ)
    (h1 : v.length ≤ i) (h2 : i < n) :
    clampedMean β n Q v (fun b => b i) = sigm (β * (Q i i + ∑ j ∈ range v.length, Q j i * v.getD j 0)) := by
  have hi : i ∈ Ico v.length n := Finset.mem_Ico.2 ⟨h1, h2⟩
  have hw : ∀ S ⊆ Ico v.length n, i ∉ S → Real.exp (β * upperEnergy n Q (clamp v (insert i S))) =
      Real.exp (β * hiddenField Q v i) * Real.exp (β * upperEnergy n Q (clamp v S)) := by
    intro S hS hiS
    rw [energy_clamp hv hu hS, energy_clamp hv hu (Finset.insert_subset hi hS), Finset.sum_insert hiS, ← Real.exp_add]
    congr 1
    ring
  have hH : Ico v.length n = insert i ((Ico v.length n).erase i) := (Finset.insert_erase hi).symm
  have hni : i ∉ (Ico v.length n).erase i := Finset.notMem_erase _ _
  have hsub : ∀ S ∈ ((Ico v.length n).erase i).powerset, S ⊆ Ico v.length n ∧ i ∉ S := by
    intro S hS
    have := Finset.mem_powerset.1 hS
    exact ⟨this.trans (Finset.erase_subset _ _), fun h => hni (this h)⟩
  set Z := ∑ S ∈ ((Ico v.length n).erase i).powerset, Real.exp (β * upperEnergy n Q (clamp v S)) with hZ
  have hZpos : 0 < Z := Finset.sum_pos (fun _ _ => Real.exp_pos _) ⟨∅, by simp⟩
  have hden : clampedSum β n Q v = Z + Real.exp (β * hiddenField Q v i) * Z := by
    rw [clampedSum, hH, Finset.sum_powerset_insert hni, ← hZ, hZ, Finset.mul_sum]
    congr 1
    exact Finset.sum_congr rfl fun S hS => hw S (hsub S hS).1 (hsub S hS).2
  have hnum : ∑ S ∈ (Ico v.length n).powerset, Real.exp (β * upperEnergy n Q (clamp v S)) * clamp v S i =
      Real.exp (β * hiddenField Q v i) * Z := by
    rw [hH, Finset.sum_powerset_insert hni]
    have z1 : ∑ S ∈ ((Ico v.length n).erase i).powerset, Real.exp (β * upperEnergy n Q (clamp v S)) * clamp v S i = 0 := by
      refine Finset.sum_eq_zero fun S hS => ?_
      simp [clamp, Nat.not_lt.2 h1, (hsub S hS).2]
    rw [z1, zero_add, hZ, Finset.mul_sum]
    refine Finset.sum_congr rfl fun S hS => ?_
    rw [hw S (hsub S hS).1 (hsub S hS).2]
    simp [clamp, Nat.not_lt.2 h1]
  rw [clampedMean, hnum, hden, sigm]
  change _ = 1 / (1 + Real.exp (-(β * hiddenField Q v i)))
  rw [Real.exp_neg]
  have := Real.exp_pos (β * hiddenField Q v i)
  field_simp
  ring

/-- **C67, hidden units.** If the hidden units are not coupled to one another, `rbm_hmodel` returns for each of them the
probability that it is 1 given the visible units, where an assignment has weight `exp(E)`. -/
theorem C67_hmodel (v : List ℝ) (m : NpMat) (hv : v.length ≤ m.rows) (hu : Uncoupled m.rows m.ent v.length) :
    (rbmHmodel v m).length = m.rows - v.length ∧
    ∀ i, v.length ≤ i → i < m.rows →
      (rbmHmodel v m)[i - v.length]? = some (clampedMean 1 m.rows m.ent v (fun b => b i)) := by
  refine ⟨rbmHmodel_length v m, fun i h1 h2 => ?_⟩
  rw [rbmHmodel_get v m h1 h2, C67_logistic 1 m.rows m.ent v hv hu i h1 h2, one_mul, hiddenField]

theorem rbmDataQubo_ent (v : List ℝ) (m : NpMat) (hv : v.length ≤ m.rows) :
    (rbmDataQubo v m).rows = m.rows ∧ (rbmDataQubo v m).cols = m.rows ∧
    ∀ i j, (rbmDataQubo v m).ent i j =
      if i < v.length ∧ v.length ≤ j ∧ j < m.rows then v.getD i 0 * (rbmHmodel v m).getD (j - v.length) 0
      else (npDiag (v ++ rbmHmodel v m)).ent i j := by
  set h := rbmHmodel v m with hh
  have inner : ∀ (l : List ℕ) (d : NpMat) (i : ℕ),
      let t := l.foldl (fun d j => d.put i j (v.getD i 0 * h.getD (j - v.length) 0)) d
      t.rows = d.rows ∧ t.cols = d.cols ∧ ∀ a b, t.ent a b =
        if a = i ∧ b ∈ l then v.getD i 0 * h.getD (b - v.length) 0 else d.ent a b := by
    intro l
    induction l with
    | nil => intro d i; simp
    | cons j l ih =>
      intro d i
      obtain ⟨a1, a2, a3⟩ := ih (d.put i j (v.getD i 0 * h.getD (j - v.length) 0)) i
      refine ⟨a1, a2, fun a b => ?_⟩
      simp only [List.foldl_cons]
      rw [a3 a b]
      by_cases h1 : a = i ∧ b ∈ l
      · rw [if_pos h1, if_pos ⟨h1.1, List.mem_cons_of_mem _ h1.2⟩]
      · rw [if_neg h1]
        by_cases h2 : a = i ∧ b = j
        · obtain ⟨rfl, rfl⟩ := h2
          simp [NpMat.put]
        · rw [if_neg (by rintro ⟨x, y⟩; rcases List.mem_cons.1 y with z | z; exacts [h2 ⟨x, z⟩, h1 ⟨x, z⟩])]
          simp [NpMat.put, h2]
  have outer : ∀ (l : List ℕ) (d : NpMat),
      let t := l.foldl (fun d i => (List.range' v.length (m.rows - v.length)).foldl
        (fun d j => d.put i j (v.getD i 0 * h.getD (j - v.length) 0)) d) d
      t.rows = d.rows ∧ t.cols = d.cols ∧ ∀ a b, t.ent a b =
        if a ∈ l ∧ (v.length ≤ b ∧ b < m.rows) then v.getD a 0 * h.getD (b - v.length) 0 else d.ent a b := by
    intro l
    induction l with
    | nil => intro d; simp
    | cons i l ih =>
      intro d
      obtain ⟨b1, b2, b3⟩ := inner (List.range' v.length (m.rows - v.length)) d i
      obtain ⟨a1, a2, a3⟩ := ih ((List.range' v.length (m.rows - v.length)).foldl
        (fun d j => d.put i j (v.getD i 0 * h.getD (j - v.length) 0)) d)
      refine ⟨a1.trans b1, a2.trans b2, fun a b => ?_⟩
      simp only [List.foldl_cons]
      rw [a3 a b, b3 a b]
      have hb : b ∈ List.range' v.length (m.rows - v.length) ↔ v.length ≤ b ∧ b < m.rows := by
        rw [List.mem_range'_1]; omega
      simp only [hb]
      by_cases h1 : v.length ≤ b ∧ b < m.rows
      · by_cases h2 : a = i
        · subst h2; simp [h1]
        · simp [h1, h2]
      · simp [h1]
  obtain ⟨a1, a2, a3⟩ := outer (List.range v.length) (npDiag (v ++ h))
  have hlen : (npDiag (v ++ h)).rows = m.rows := by
    simp [npDiag, hh, rbmHmodel_length]; omega
  refine ⟨a1.trans hlen, a2.trans hlen, fun i j => ?_⟩
  rw [show (rbmDataQubo v m).ent i j = _ from a3 i j]
  simp only [List.mem_range]

/-- **C67, data.** `rbm_data_qubo` has on its diagonal the means of the units and at (visible, hidden) the means of the
products, given the visible units; everything else is 0. -/
theorem C67_data (v : List ℝ) (m : NpMat) (hv : v.length ≤ m.rows) (hu : Uncoupled m.rows m.ent v.length) :
    (rbmDataQubo v m).rows = m.rows ∧ (rbmDataQubo v m).cols = m.rows ∧
    (∀ i < m.rows, (rbmDataQubo v m).ent i i = clampedMean 1 m.rows m.ent v (fun b => b i)) ∧
    (∀ i j, i < v.length → v.length ≤ j → j < m.rows →
      (rbmDataQubo v m).ent i j = clampedMean 1 m.rows m.ent v (fun b => b i * b j)) ∧
    ∀ i j, i ≠ j → ¬ (i < v.length ∧ v.length ≤ j ∧ j < m.rows) → (rbmDataQubo v m).ent i j = 0 := by
  obtain ⟨h1, h2, h3⟩ := rbmDataQubo_ent v m hv
  obtain ⟨-, h5⟩ := C67_hmodel v m hv hu
  refine ⟨h1, h2, fun i hi => ?_, fun i j hi hj hj' => ?_, fun i j hij hn => ?_⟩
  · rw [h3, if_neg (by omega)]
    by_cases hiv : i < v.length
    · rw [clampedMean_const 1 m.rows m.ent v (v.getD i 0) (fun b => b i) (fun S hS => by simp [clamp, hiv])]
      simp [npDiag, List.getD_eq_getElem?_getD, List.getElem?_append_left hiv]
    · have := h5 i (by omega) hi
      simp only [npDiag, if_true, List.getD_eq_getElem?_getD]
      rw [List.getElem?_append_right (by omega), this]
      rfl
  · rw [h3, if_pos ⟨hi, hj, hj'⟩]
    rw [clampedMean_mul 1 m.rows m.ent v (v.getD i 0) (fun b => b i * b j) (fun b => b j)
      (fun S hS => by simp [clamp, hi])]
    have := h5 j hj hj'
    simp only [List.getD_eq_getElem?_getD, this, Option.getD_some]
  · rw [h3, if_neg hn]
    simp [npDiag, hij]

theorem upperEnergy_bump (n : ℕ) (Q : ℕ → ℕ → ℝ) (i j : ℕ) (hij : i ≤ j) (hj : j < n) (t : ℝ) (b : ℕ → ℝ) :
    upperEnergy n (fun a c => Q a c + if a = i ∧ c = j then t else 0) b = upperEnergy n Q b + t * (b i * b j) := by
  have e : ∀ a c, (if a ≤ c then (Q a c + if a = i ∧ c = j then t else 0) * b a * b c else 0) =
      (if a ≤ c then Q a c * b a * b c else 0) + if a = i then (if c = j then t * (b i * b j) else 0) else 0 := by
    intro a c
    by_cases h1 : a = i
    · by_cases h2 : c = j
      · subst h1 h2; simp [hij]; ring
      · simp [h1, h2]
    · simp [h1]
  simp only [upperEnergy, e, Finset.sum_add_distrib]
  congr 1
  rw [Finset.sum_eq_single i]
  · simp only [if_true]
    rw [Finset.sum_eq_single j]
    · simp
    · intro c _ hc; simp [hc]
    · intro h; simp at h; omega
  · intro a _ ha; simp [ha]
  · intro h; simp at h; omega

/-- The derivative of the logarithm of the clamped sum by the entry `(i, j)` is the mean of the product of the units. -/
theorem clampedSum_deriv (n : ℕ) (Q : ℕ → ℕ → ℝ) (v : List ℝ) (i j : ℕ) (hij : i ≤ j) (hj : j < n) :
    HasDerivAt (fun t => Real.log (clampedSum 1 n (fun a c => Q a c + if a = i ∧ c = j then t else 0) v))
      (clampedMean 1 n Q v (fun b => b i * b j)) 0 := by
  have hs : ∀ t, clampedSum 1 n (fun a c => Q a c + if a = i ∧ c = j then t else 0) v =
      ∑ S ∈ (Ico v.length n).powerset,
        Real.exp (upperEnergy n Q (clamp v S) + t * (clamp v S i * clamp v S j)) := by
    intro t
    refine Finset.sum_congr rfl fun S _ => ?_
    rw [upperEnergy_bump n Q i j hij hj, one_mul]
  simp only [hs]
  have hd : HasDerivAt (fun t : ℝ => ∑ S ∈ (Ico v.length n).powerset,
        Real.exp (upperEnergy n Q (clamp v S) + t * (clamp v S i * clamp v S j)))
      (∑ S ∈ (Ico v.length n).powerset,
        Real.exp (1 * upperEnergy n Q (clamp v S)) * (clamp v S i * clamp v S j)) 0 := by
    refine HasDerivAt.fun_sum fun S _ => ?_
    have h1 : HasDerivAt (fun t : ℝ => upperEnergy n Q (clamp v S) + t * (clamp v S i * clamp v S j))
        (clamp v S i * clamp v S j) 0 := by
      simpa using ((hasDerivAt_id (0 : ℝ)).mul_const (clamp v S i * clamp v S j)).const_add
        (upperEnergy n Q (clamp v S))
    simpa using h1.exp
  have hz : ∑ S ∈ (Ico v.length n).powerset,
      Real.exp (upperEnergy n Q (clamp v S) + 0 * (clamp v S i * clamp v S j)) = clampedSum 1 n Q v := by
    refine Finset.sum_congr rfl fun S _ => ?_
    rw [zero_mul, add_zero, one_mul]
  have := hd.log (by rw [hz]; exact (clampedSum_pos 1 n Q v).ne')
  rw [hz] at this
  exact this

/-- **C67, gradient.** For bits `v`, the entries of `rbm_data_qubo` are the derivatives of the logarithm of the weight of `v`
by the entries of the matrix. -/
theorem C67_gradient (v : List ℝ) (m : NpMat) (hv : v.length ≤ m.rows) (hu : Uncoupled m.rows m.ent v.length)
    (hb : ∀ x ∈ v, x = 0 ∨ x = 1) (i j : ℕ) (hij : i = j ∨ (i < v.length ∧ v.length ≤ j)) (hj : j < m.rows) :
    HasDerivAt (fun t => Real.log (clampedSum 1 m.rows (fun a c => m.ent a c + if a = i ∧ c = j then t else 0) v))
      ((rbmDataQubo v m).ent i j) 0 := by
  obtain ⟨-, -, h1, h2, -⟩ := C67_data v m hv hu
  have hd := clampedSum_deriv m.rows m.ent v i j (by omega) hj
  rcases hij with rfl | ⟨h3, h4⟩
  · rw [h1 i hj]
    convert hd using 1
    simp only [clampedMean]
    congr 1
    refine Finset.sum_congr rfl fun S _ => ?_
    congr 1
    simp only [clamp]
    split_ifs with ha
    · have := hb (v.getD i 0) (by rw [List.getD_eq_getElem _ _ ha]; exact List.getElem_mem ha)
      rcases this with h | h <;> rw [h] <;> simp
    · simp
    · simp
  · rw [h2 i j h3 h4 hj]
    exact hd

/-! ## The model's averages and training -/

theorem rbmWeights_ok (visible hidden n : ℕ) (hn : visible + hidden ≤ n) (result : List (List ℤ)) :
    ∃ w, rbmWeights visible hidden n result = .ok w ∧ w.rows = n ∧ w.cols = n ∧
      ∀ i j, w.ent i j = if i < visible ∧ visible ≤ j ∧ j < visible + hidden then
        (result.map (fun q => (q.getD i 0 : ℝ) * (q.getD j 0 : ℝ))).sum else 0 := by
  have h3 : ∀ (i j : ℕ), i < n → j < n → ∀ (l : List (List ℤ)) (w : NpMat),
      ∃ t, l.foldlM (fun (w : NpMat) q =>
          if i < n ∧ j < n then (.ok (w.put i j (w.ent i j + (q.getD i 0 : ℝ) * (q.getD j 0 : ℝ))) : Except PyErr NpMat)
          else .error .indexError) w = .ok t ∧ t.rows = w.rows ∧ t.cols = w.cols ∧
        ∀ a b, t.ent a b = w.ent a b +
          if a = i ∧ b = j then (l.map (fun q => (q.getD i 0 : ℝ) * (q.getD j 0 : ℝ))).sum else 0 := by
    intro i j hi hj l
    induction l with
    | nil => intro w; exact ⟨w, rfl, rfl, rfl, by simp⟩
    | cons q l ih =>
      intro w
      obtain ⟨t, a1, a2, a3, a4⟩ := ih (w.put i j (w.ent i j + (q.getD i 0 : ℝ) * (q.getD j 0 : ℝ)))
      refine ⟨t, ?_, a2, a3, fun a b => ?_⟩
      · rw [List.foldlM_cons, if_pos ⟨hi, hj⟩]; exact a1
      · rw [a4]
        by_cases h : a = i ∧ b = j
        · obtain ⟨rfl, rfl⟩ := h
          simp [NpMat.put]; ring
        · simp [NpMat.put, h]
  have h2 : ∀ (i : ℕ), i < n → ∀ (l : List ℕ), l.Nodup → (∀ j ∈ l, j < n) → ∀ (w : NpMat),
      ∃ t, l.foldlM (fun w j => result.foldlM (fun (w : NpMat) q =>
          if i < n ∧ j < n then (.ok (w.put i j (w.ent i j + (q.getD i 0 : ℝ) * (q.getD j 0 : ℝ))) : Except PyErr NpMat)
          else .error .indexError) w) w = .ok t ∧ t.rows = w.rows ∧ t.cols = w.cols ∧
        ∀ a b, t.ent a b = w.ent a b +
          if a = i ∧ b ∈ l then (result.map (fun q => (q.getD a 0 : ℝ) * (q.getD b 0 : ℝ))).sum else 0 := by
    intro i hi l
    induction l with
    | nil => intro _ _ w; exact ⟨w, rfl, rfl, rfl, by simp⟩
    | cons j l ih =>
      intro hnd hl w
      obtain ⟨t, a1, a2, a3, a4⟩ := h3 i j hi (hl j (by simp)) result w
      obtain ⟨u, b1, b2, b3, b4⟩ := ih hnd.of_cons (fun x hx => hl x (by simp [hx])) t
      refine ⟨u, ?_, b2.trans a2, b3.trans a3, fun a b => ?_⟩
      · rw [List.foldlM_cons, a1]; exact b1
      · rw [b4, a4]
        by_cases h1 : a = i
        · subst h1
          by_cases h2 : b = j
          · subst h2
            have : b ∉ l := (List.nodup_cons.1 hnd).1
            simp [this]
          · simp [h2]
        · simp [h1]
  have h1 : ∀ (l : List ℕ), l.Nodup → (∀ i ∈ l, i < n) → ∀ (w : NpMat),
      ∃ t, l.foldlM (fun w i => (List.range' visible hidden).foldlM (fun w j => result.foldlM (fun (w : NpMat) q =>
          if i < n ∧ j < n then (.ok (w.put i j (w.ent i j + (q.getD i 0 : ℝ) * (q.getD j 0 : ℝ))) : Except PyErr NpMat)
          else .error .indexError) w) w) w = .ok t ∧ t.rows = w.rows ∧ t.cols = w.cols ∧
        ∀ a b, t.ent a b = w.ent a b + if a ∈ l ∧ b ∈ List.range' visible hidden then
          (result.map (fun q => (q.getD a 0 : ℝ) * (q.getD b 0 : ℝ))).sum else 0 := by
    intro l
    induction l with
    | nil => intro _ _ w; exact ⟨w, rfl, rfl, rfl, by simp⟩
    | cons i l ih =>
      intro hnd hl w
      obtain ⟨t, a1, a2, a3, a4⟩ := h2 i (hl i (by simp)) (List.range' visible hidden) List.nodup_range'
        (fun j hj => by rw [List.mem_range'_1] at hj; omega) w
      obtain ⟨u, b1, b2, b3, b4⟩ := ih hnd.of_cons (fun x hx => hl x (by simp [hx])) t
      refine ⟨u, ?_, b2.trans a2, b3.trans a3, fun a b => ?_⟩
      · rw [List.foldlM_cons, a1]; exact b1
      · rw [b4, a4]
        by_cases h1 : a = i
        · subst h1
          have : a ∉ l := (List.nodup_cons.1 hnd).1
          simp [this]
        · simp [h1]
  obtain ⟨t, a1, a2, a3, a4⟩ := h1 (List.range visible) List.nodup_range
    (fun i hi => by rw [List.mem_range] at hi; omega) (npZeros n)
  refine ⟨t, a1, a2, a3, fun i j => ?_⟩
  rw [a4]
  simp only [List.mem_range, List.mem_range'_1, npZeros, zero_add]

/-- **C67, model.** With two or more shots, `rbm_model_qubo` has on its diagonal the mean values of the bits over the shots,
at (visible, hidden) the mean products, and 0 elsewhere. -/
theorem C67_model (visible hidden n shots : ℕ) (hn : visible + hidden ≤ n) (hs : shots ≠ 0) (bits : List (List ℤ)) :
    ∃ M, rbmModelQubo visible hidden n shots (.many bits) = .ok M ∧ M.rows = n ∧ M.cols = n ∧
      (∀ i < n, M.ent i i = (bits.map (fun q => (q.getD i 0 : ℝ))).sum / shots) ∧
      (∀ i j, i < visible → visible ≤ j → j < visible + hidden →
        M.ent i j = (bits.map (fun q => (q.getD i 0 : ℝ) * (q.getD j 0 : ℝ))).sum / shots) ∧
      ∀ i j, i ≠ j → ¬ (i < visible ∧ visible ≤ j ∧ j < visible + hidden) → M.ent i j = 0 := by
  obtain ⟨w, h1, h2, h3, h4⟩ := rbmWeights_ok visible hidden n hn bits
  refine ⟨_, by simp only [rbmModelQubo, if_neg hs, h1, bind, Except.bind]; rfl, ?_, ?_, fun i hi => ?_,
    fun i j hi hj hj' => ?_, fun i j hij hnn => ?_⟩
  · simp [NpMat.add, npDiag]
  · simp [NpMat.add, npDiag]
  · simp only [NpMat.add, npDiag, NpMat.scale, h4, if_true]
    rw [if_neg (by omega)]
    simp [List.getD_eq_getElem?_getD, List.getElem?_range hi]
  · simp only [NpMat.add, npDiag, NpMat.scale, h4]
    rw [if_neg (by omega), if_pos ⟨hi, hj, hj'⟩]
    ring
  · simp only [NpMat.add, npDiag, NpMat.scale, h4]
    rw [if_neg hij, if_neg hnn]
    ring

/-- **C67 is false for `shots=1`** (and 0): `rbm_model_qubo`, and with it `fit`, raises ValueError for every result of the
run. -/
theorem C67_one_shot_refuted (visible hidden n : ℕ) (res : SAResult) (shots : ℕ) (E : ELog) (P : List ℤ → List ℝ → Prop)
    (hs : shots ≤ 1) (h : RunOk P shots (res, E)) : rbmModelQubo visible hidden n shots res = .error .valueError := by
  match res, E, h with
  | .single _, _, _ => rfl
  | .many bs, .nested ess, h =>
    obtain ⟨h1, h2, -⟩ := h
    have : shots = 0 := by omega
    simp [rbmModelQubo, this]

theorem forall₂_left {α β : Type*} {R : α → β → Prop} {l : List α} {l' : List β} (h : List.Forall₂ R l l') :
    ∀ x ∈ l, ∃ y, R x y := by
  induction h with
  | nil => intro x hx; cases hx
  | cons a _ ih =>
    intro x hx
    rcases List.mem_cons.1 hx with rfl | hx
    · exact ⟨_, a⟩
    · exact ih x hx

/-- The mean of the product of bits `i` and `j` over the shots. -/
def sampleMean (bits : List (List ℤ)) (i j : ℕ) : ℝ :=
  (bits.map (fun q => (q.getD i 0 : ℝ) * (q.getD j 0 : ℝ))).sum / bits.length

/-- **C67, one epoch of `fit`.** The new matrix is `α Q + ε (data - model)` on the diagonal and at (visible, hidden), where
`data` are means given the inverted datum `1 - v` and `model` are means over the shots of annealing runs on the energy of
`Q`; the other entries are multiplied by `α`. -/
theorem C67_epoch (o : Opt) (visible hidden : ℕ) (m : NpMat) (hm : m.rows = visible + hidden ∧ m.cols = visible + hidden)
    (h2 : 2 ≤ visible + hidden) (hu : Uncoupled m.rows m.ent visible) (v : List ℤ) (hv : v.length = visible)
    (shots : ℕ) (target alpha eps : ℝ) (r : Rand) (fuel : ℕ) (m' : NpMat)
    (h : fitStep o visible hidden m v shots target alpha eps r fuel = .ok (some m')) :
    m'.rows = visible + hidden ∧ m'.cols = visible + hidden ∧
    ∃ (bits : List (List ℤ)) (es : List (List ℝ)), bits.length = shots ∧
      List.Forall₂ (Shot (fun c => upperEnergy m.rows m.ent (bitVals c)) m.rows 100 0.75 target o.Ts) bits es ∧
      (∀ i j, (i = j ∧ i < m.rows) ∨ (i < visible ∧ visible ≤ j ∧ j < m.rows) →
        m'.ent i j = alpha * m.ent i j + eps *
          (clampedMean 1 m.rows m.ent (v.map fun x : ℤ => 1 - (x : ℝ)) (fun b => if i = j then b i else b i * b j) -
            sampleMean bits i j)) ∧
      ∀ i j, i ≠ j → ¬ (i < visible ∧ visible ≤ j ∧ j < m.rows) → m'.ent i j = alpha * m.ent i j := by
  have hvin : ((v.map (fun i => ((i - 1) * (-1) : ℤ))).map (fun i : ℤ => (i : ℝ))) = v.map fun x : ℤ => 1 - (x : ℝ) := by
    rw [List.map_map]
    refine List.map_congr_left fun x _ => ?_
    simp only [Function.comp]
    push_cast
    ring
  simp only [fitStep, hvin, bind, Except.bind] at h
  set V := v.map fun x : ℤ => 1 - (x : ℝ) with hV
  have hVl : V.length = visible := by simp [hV, hv]
  match hr : o.runVal (.array m) shots true target r fuel with
  | .error e => rw [hr] at h; cases h
  | .ok none => rw [hr] at h; cases h
  | .ok (some res) =>
    rw [hr] at h
    simp only at h
    have hcond : (QuboVal.array m).neEmpty = true := by simp [QuboVal.neEmpty, hm.2]; omega
    simp only [Opt.runVal, hcond, if_true] at hr
    have hlen : m.toRows.length = m.rows := toRows_length m
    have hrun := C49_run { o with qubo := m.toRows }
      (by intro h'; replace h' : m.toRows = [] := h'; rw [h'] at hlen; simp at hlen; omega)
      (by
        intro row hrow
        simp only [NpMat.toRows, List.mem_map, List.mem_range] at hrow
        obtain ⟨i, hi, rfl⟩ := hrow
        simp [hlen, hm.1, hm.2]) shots true target r fuel res hr
    simp only [hlen, if_true] at hrun
    have e : (fun c => upperEnergy m.rows (entryOf m.toRows) (bitVals c)) =
        fun c => upperEnergy m.rows m.ent (bitVals c) := by
      funext c
      exact upperEnergy_congr (fun i hi j hj => toRows_entry m hi (by omega)) _
    rw [e] at hrun
    by_cases hs : shots ≤ 1
    · rw [C67_one_shot_refuted visible hidden m.rows res.1 shots res.2 _ hs hrun] at h
      cases h
    match res, hrun with
    | (.single _, .flat _), hrun => exact absurd hrun.1 (by omega)
    | (.many bits, .nested es), hrun =>
      obtain ⟨-, hbl, hbs⟩ := hrun
      obtain ⟨M, k1, k2, k3, k4, k5, k6⟩ := C67_model visible hidden m.rows shots (by omega) (by omega) bits
      obtain ⟨d1, d2, d3, d4, d5⟩ := C67_data V m (by omega) (by rw [hVl]; exact hu)
      simp only [k1] at h
      have p1 : (rbmDataQubo V m).plus (M.scale (-1)) = .ok ((rbmDataQubo V m).add (M.scale (-1))) := by
        rw [NpMat.plus, if_pos]; exact ⟨d1.trans k2.symm, d2.trans k3.symm⟩
      rw [p1] at h
      simp only at h
      have p2 : (m.scale alpha).plus (((rbmDataQubo V m).add (M.scale (-1))).scale eps) =
          .ok ((m.scale alpha).add (((rbmDataQubo V m).add (M.scale (-1))).scale eps)) := by
        rw [NpMat.plus, if_pos]
        refine ⟨d1.symm, ?_⟩
        show m.cols = (rbmDataQubo V m).cols
        omega
      rw [p2] at h
      simp only [pure, Except.pure, Except.ok.injEq, Option.some.injEq] at h
      subst h
      have hbit : ∀ q ∈ bits, ∀ k, (q.getD k 0 : ℝ) * (q.getD k 0 : ℝ) = q.getD k 0 := by
        intro q hq k
        obtain ⟨es', he⟩ := forall₂_left hbs q hq
        obtain ⟨c, d, es'', -, -, hb⟩ := he
        rw [hb]
        by_cases hk : k < m.rows
        · simp [List.getD_eq_getElem?_getD, List.getElem?_range hk]
        · simp [List.getD_eq_getElem?_getD, List.getElem?_eq_none (show (List.range m.rows).length ≤ k by simpa using hk)]
      refine ⟨hm.1, hm.2, bits, es, hbl, hbs, fun i j hij => ?_, fun i j hij hn => ?_⟩
      · rcases hij with ⟨rfl, hi⟩ | ⟨hi, hj, hj'⟩
        · simp only [NpMat.add, NpMat.scale, if_true, d3 i hi, k4 i hi, sampleMean, hbl]
          have : bits.map (fun q => (q.getD i 0 : ℝ) * (q.getD i 0 : ℝ)) = bits.map (fun q => (q.getD i 0 : ℝ)) :=
            List.map_congr_left fun q hq => hbit q hq i
          rw [this]
          ring
        · have hne : i ≠ j := by omega
          simp only [NpMat.add, NpMat.scale, if_neg hne, d4 i j (by omega) (by omega) hj', k5 i j hi hj (by omega),
            sampleMean, hbl]
          ring
      · simp only [NpMat.add, NpMat.scale, d5 i j hij (by omega), k6 i j hij (by omega)]
        ring

/-- **C67, `fit`.** Training keeps the two layers apart: from a matrix with couplings only between visible and hidden units,
every sequence of epochs leads to such a matrix again, so that C67_hmodel and C67_epoch hold in every epoch. -/
theorem C67_fit (o : Opt) (visible hidden : ℕ) (h2 : 2 ≤ visible + hidden) (vdata : List (List ℤ))
    (hv : ∀ v ∈ vdata, v.length = visible) (shots : ℕ) (target alpha eps : ℝ) (fuel : ℕ) :
    ∀ (draws : List (ℕ × Rand)) (m m' : NpMat), m.rows = visible + hidden → m.cols = visible + hidden →
      TwoLayer (visible + hidden) visible m.ent →
      rbmFit o visible hidden vdata shots target alpha eps fuel draws m = .ok (some m') →
      m'.rows = visible + hidden ∧ m'.cols = visible + hidden ∧ TwoLayer (visible + hidden) visible m'.ent ∧
        Uncoupled (visible + hidden) m'.ent visible
  | [], m, m', hr, hc, ht, h => by
    cases h
    exact ⟨hr, hc, ht, fun i j hi hij hj => ht i (by omega) j hj (by omega) (by omega)⟩
  | (x, r) :: rest, m, m', hr, hc, ht, h => by
    rw [rbmFit] at h
    by_cases hvd : vdata = []
    · rw [if_pos hvd] at h; cases h
    rw [if_neg hvd] at h
    have hpos : 0 < vdata.length := List.length_pos_iff.2 hvd
    have hx : x % vdata.length < vdata.length := Nat.mod_lt _ hpos
    have hvl := hv (vdata.getD (x % vdata.length) [])
      (by rw [List.getD_eq_getElem _ _ hx]; exact List.getElem_mem hx)
    match hf : fitStep o visible hidden m (vdata.getD (x % vdata.length) []) shots target alpha eps r fuel with
    | .error e => rw [hf] at h; cases h
    | .ok none => rw [hf] at h; cases h
    | .ok (some m1) =>
      rw [hf] at h
      obtain ⟨k1, k2, -, -, -, -, -, k3⟩ := C67_epoch o visible hidden m ⟨hr, hc⟩ h2
        (fun i j hi hij hj => ht i (by omega) j (by omega) (by omega) (by omega)) _ hvl shots target alpha eps r fuel m1 hf
      refine C67_fit o visible hidden h2 vdata hv shots target alpha eps fuel rest m1 m' k1 k2 ?_ h
      intro i hi j hj hij hn
      rw [k3 i j hij (by omega), ht i hi j hj hij hn, mul_zero]

/-- **C67 is false for the distribution that `fit` samples from.** Annealing at temperature `T` prefers low energies: its
weights are `exp(-E/T)`. With these, the probability that a hidden unit is 1 is on the other side of 1/2 from what
`rbm_hmodel` returns, unless the field of the unit is 0. -/
theorem C67_sign_refuted (T : ℝ) (hT : 0 < T) (v : List ℝ) (m : NpMat) (hv : v.length ≤ m.rows)
    (hu : Uncoupled m.rows m.ent v.length) (i : ℕ) (h1 : v.length ≤ i) (h2 : i < m.rows)
    (hf : 0 < m.ent i i + ∑ j ∈ range v.length, m.ent j i * v.getD j 0) :
    ∃ p, (rbmHmodel v m)[i - v.length]? = some p ∧ 1 / 2 < p ∧
      clampedMean (-1 / T) m.rows m.ent v (fun b => b i) < 1 / 2 := by
  refine ⟨_, rbmHmodel_get v m h1 h2, ?_, ?_⟩
  · rw [sigm, hiddenField]
    have : Real.exp (-(m.ent i i + ∑ j ∈ range v.length, m.ent j i * v.getD j 0)) < 1 :=
      by rw [Real.exp_lt_one_iff]; linarith
    have h0 := Real.exp_pos (-(m.ent i i + ∑ j ∈ range v.length, m.ent j i * v.getD j 0))
    rw [div_lt_div_iff₀ (by norm_num) (by linarith)]
    linarith
  · rw [C67_logistic _ m.rows m.ent v hv hu i h1 h2, sigm]
    have hneg : 0 < -(-1 / T * (m.ent i i + ∑ j ∈ range v.length, m.ent j i * v.getD j 0)) := by
      have : 0 < 1 / T * (m.ent i i + ∑ j ∈ range v.length, m.ent j i * v.getD j 0) := by positivity
      have e : -(-1 / T * (m.ent i i + ∑ j ∈ range v.length, m.ent j i * v.getD j 0)) =
          1 / T * (m.ent i i + ∑ j ∈ range v.length, m.ent j i * v.getD j 0) := by ring
      rw [e]; exact this
    have := Real.one_lt_exp_iff.2 hneg
    rw [div_lt_div_iff₀ (by linarith) (by norm_num)]
    linarith

/-- The hypotheses can be met: two visible and two hidden units with all weights 2, and the visible units 1 and 0. -/
example : ∃ M p, wqDbms [2, 2] 2 (fun _ => 0) = .ok M ∧ Uncoupled M.rows M.ent ([1, 0] : List ℝ).length ∧
    (rbmHmodel [1, 0] M)[0]? = some p ∧ 1 / 2 < p ∧ clampedMean (-1 / 0.02) M.rows M.ent [1, 0] (fun b => b 2) < 1 / 2 := by
  obtain ⟨M, h1, h2, h3, h4, h5, h6⟩ := C66_weight [2, 2] (by simp) 2 (by norm_num) (fun _ => 0)
  obtain ⟨M', h1', h2', h3', ht⟩ := C66_two_layers 2 2 2 (fun _ => 0)
  rw [h1] at h1'
  cases h1'
  have hr : M.rows = 4 := by rw [h2]; rfl
  have hu : Uncoupled M.rows M.ent ([1, 0] : List ℝ).length := by
    intro i j hi hij hj
    rw [hr] at hj
    simp at hi
    exact ht i (by omega) j (by omega) (by omega) (by omega)
  obtain ⟨p, p1, p2, p3⟩ := C67_sign_refuted 0.02 (by norm_num) [1, 0] M (by simp [hr]) hu 2 (by simp) (by omega) (by
    have e1 : M.ent 2 2 = 1 / 2 := h4 2 (by simp)
    have e2 : M.ent 0 2 = 2 := h5 0 2 ⟨0, by simp [InLayer, layerStart]⟩
    simp [Finset.sum_range_succ, e1, e2]
    norm_num)
  exact ⟨M, p, h1, hu, by simpa using p1, p2, p3⟩

/-- An epoch on such a machine ends: with the default parameters some number of temperatures is enough, and the result is
a matrix. -/
example (r : Rand) : ∃ M N, wqDbms [2, 2] 2 (fun _ => 0) = .ok M ∧ ∀ fuel ≥ N, ∃ m',
    fitStep {} 2 2 M [1, 0] 100 0.02 0.9 0.1 r fuel = .ok (some m') := by
  obtain ⟨M, h1, h2, h3, ht⟩ := C66_two_layers 2 2 2 (fun _ => 0)
  have hlen : M.toRows.length = 4 := by rw [toRows_length, h2]
  have hrow : ∀ row ∈ M.toRows, M.toRows.length ≤ row.length := by
    intro row hrow
    simp only [NpMat.toRows, List.mem_map, List.mem_range] at hrow
    obtain ⟨i, hi, rfl⟩ := hrow
    simp [hlen, h3]
  have hne : M.toRows ≠ [] := by intro h'; rw [h'] at hlen; simp at hlen
  obtain ⟨N, hN⟩ := C49_terminates { qubo := M.toRows } hne hrow (by norm_num) (by norm_num) 100 true 0.02 (by norm_num)
  refine ⟨M, N, h1, fun fuel hf => ?_⟩
  obtain ⟨res, hres⟩ := hN fuel hf r
  have hok := C49_run { qubo := M.toRows } hne hrow 100 true 0.02 r fuel res hres
  match res, hok, hres with
  | (.single _, .flat _), hok, _ => exact absurd hok.1 (by norm_num)
  | (.many bits, .nested es), hok, hres =>
    obtain ⟨W, k1, k2, k3, -⟩ := C67_model 2 2 M.rows 100 (by omega) (by norm_num) bits
    have hcond : (QuboVal.array M).neEmpty = true := by simp [QuboVal.neEmpty, h3]
    have hrv : ({} : Opt).runVal (.array M) 100 true 0.02 r fuel = .ok (some (.many bits, .nested es)) := by
      simp only [Opt.runVal, hcond, if_true]
      exact hres
    obtain ⟨d1, d2, -⟩ := rbmDataQubo_ent ((([1, 0] : List ℤ).map (fun i => ((i - 1) * (-1) : ℤ))).map (fun i : ℤ => (i : ℝ)))
      M (by simp [h2])
    have p2 : ∀ A : NpMat, A.rows = M.rows → A.cols = M.cols → (M.scale 0.9).plus A = .ok ((M.scale 0.9).add A) := by
      intro A a1 a2
      rw [NpMat.plus, if_pos ⟨a1.symm, a2.symm⟩]
    refine ⟨((M.scale 0.9).add (((rbmDataQubo ((([1, 0] : List ℤ).map (fun i => ((i - 1) * (-1) : ℤ))).map
      (fun i : ℤ => (i : ℝ))) M).add (W.scale (-1))).scale 0.1)), ?_⟩
    simp only [fitStep, bind, Except.bind, hrv, k1]
    rw [NpMat.plus, if_pos ⟨d1.trans k2.symm, d2.trans k3.symm⟩]
    simp only
    rw [p2]
    · rfl
    · exact d1
    · show (rbmDataQubo _ M).cols = M.cols
      rw [d2, h2, h3]

end

end Blueqat
