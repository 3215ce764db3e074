import Verif.Props.Born
import Mathlib.Data.Nat.Choose.Multinomial

/-!
# C83: the counts of a run are multinomially distributed
-/

set_option linter.unusedSimpArgs false
set_option linter.unusedVariables false

namespace Blueqat

open Spec MeasureTheory

noncomputable section

/-! ## Multinomial coefficients -/

/-- One thing less of kind `s`. -/
def lower (c : String → ℕ) (s : String) : String → ℕ := Function.update c s (c s - 1)

theorem lower_prod {S : Finset String} {s : String} (hs : s ∈ S) {c : String → ℕ} (hc : 0 < c s) {M : Type} [CommMonoid M]
    (f : String → ℕ → M) (a : M) (ha : f s (c s) = a * f s (c s - 1)) :
    ∏ x ∈ S, f x (c x) = a * ∏ x ∈ S, f x (lower c s x) := by
  rw [← Finset.mul_prod_erase S _ hs, ← Finset.mul_prod_erase S (fun x => f x (lower c s x)) hs, ha, mul_assoc]
  congr 2
  · simp [lower]
  · refine Finset.prod_congr rfl fun x hx => ?_
    rw [lower, Function.update_of_ne (Finset.ne_of_mem_erase hx)]

theorem lower_sum {S : Finset String} {s : String} (hs : s ∈ S) {c : String → ℕ} (hc : 0 < c s) {k : ℕ}
    (hk : ∑ x ∈ S, c x = k + 1) : ∑ x ∈ S, lower c s x = k := by
  rw [← Finset.add_sum_erase S _ hs] at hk ⊢
  have : ∑ x ∈ S.erase s, lower c s x = ∑ x ∈ S.erase s, c x :=
    Finset.sum_congr rfl fun x hx => by rw [lower, Function.update_of_ne (Finset.ne_of_mem_erase hx)]
  rw [this, lower, Function.update_self]
  omega

theorem multinomial_pascal (S : Finset String) (c : String → ℕ) (k : ℕ) (hk : ∑ x ∈ S, c x = k + 1) :
    ∑ s ∈ S with 0 < c s, Nat.multinomial S (lower c s) = Nat.multinomial S c := by
  have hpos : 0 < ∏ x ∈ S, (c x).factorial := Finset.prod_pos fun x _ => Nat.factorial_pos _
  refine Nat.eq_of_mul_eq_mul_left hpos ?_
  rw [Nat.multinomial_spec, hk, Finset.mul_sum]
  have h : ∀ s ∈ S.filter (fun s => 0 < c s),
      (∏ x ∈ S, (c x).factorial) * Nat.multinomial S (lower c s) = c s * k.factorial := by
    intro s hs
    obtain ⟨h1, h2⟩ := Finset.mem_filter.1 hs
    rw [lower_prod h1 h2 (fun _ m => m.factorial) (c s) (Nat.mul_factorial_pred (by omega)).symm, mul_assoc,
      Nat.multinomial_spec, lower_sum h1 h2 hk]
  rw [Finset.sum_congr rfl h, ← Finset.sum_mul]
  have h2 : ∑ s ∈ S with 0 < c s, c s = ∑ s ∈ S, c s := by
    refine Finset.sum_filter_of_ne fun x _ hx => Nat.pos_of_ne_zero hx
  rw [h2, hk, Nat.factorial_succ]

/-! ## Shots -/

/-- How many of `k` shots give the bits `key`. -/
def shotCount (n : ℕ) (es : List Elem) : ℕ → (ℕ → ℝ) → String → ℕ
  | 0, _, _ => 0
  | k + 1, r, key => (if outcome n es r = key then 1 else 0) + shotCount n es k (leave n es r) key

theorem shotCount_eq (n : ℕ) (es : List Elem) (k : ℕ) (r : ℕ → ℝ) (key : String) :
    (shotStates phSim n es k r).countP (fun s => decide (bitString n s.creg = key)) = shotCount n es k r key := by
  induction k generalizing r with
  | zero => rfl
  | succ k ih =>
    rw [shotStates, List.countP_cons, ih, shotCount, add_comm]
    congr 1
    simp only [decide_eq_true_eq]
    rfl

theorem shotCount_le (n : ℕ) (es : List Elem) (S : Finset String) (k : ℕ) (r : ℕ → ℝ) : ∑ key ∈ S, shotCount n es k r key ≤ k := by
  induction k generalizing r with
  | zero => simp [shotCount]
  | succ k ih =>
    simp only [shotCount, Finset.sum_add_distrib]
    have := ih (leave n es r)
    have h1 : ∑ key ∈ S, (if outcome n es r = key then 1 else 0) ≤ 1 := by
      rw [Finset.sum_ite_eq]; split_ifs <;> omega
    omega

/-- The shots give the numbers `c`. -/
def countsEvent (n : ℕ) (es : List Elem) (S : Finset String) (k : ℕ) (c : String → ℕ) : Set (ℕ → ℝ) :=
  {r | ∀ key ∈ S, shotCount n es k r key = c key}

/-- The first shot gives one of the keys, the others the rest of the numbers. -/
theorem countsEvent_succ (n : ℕ) (es : List Elem) (S : Finset String) (k : ℕ) (c : String → ℕ) (hk : ∑ x ∈ S, c x = k + 1) :
    countsEvent n es S (k + 1) c =
      ⋃ s ∈ S.filter (fun s => 0 < c s), {r | outcome n es r = s} ∩ leave n es ⁻¹' countsEvent n es S k (lower c s) := by
  ext r
  simp only [countsEvent, Set.mem_setOf_eq, Set.mem_iUnion, Finset.mem_filter, Set.mem_inter_iff, Set.mem_preimage, exists_prop]
  constructor
  · intro h
    have hin : outcome n es r ∈ S := by
      by_contra hno
      have h1 : ∑ key ∈ S, shotCount n es (k + 1) r key = k + 1 := by rw [Finset.sum_congr rfl h, hk]
      simp only [shotCount, Finset.sum_add_distrib] at h1
      have h2 := shotCount_le n es S k (leave n es r)
      rw [Finset.sum_ite_eq, if_neg hno] at h1
      omega
    have h0 := h _ hin
    simp only [shotCount, if_true] at h0
    refine ⟨outcome n es r, ⟨hin, by omega⟩, rfl, fun key hkey => ?_⟩
    have hk' := h key hkey
    simp only [shotCount] at hk'
    by_cases he : key = outcome n es r
    · subst he
      rw [lower, Function.update_self]
      rw [if_pos rfl] at hk'
      omega
    · rw [if_neg (Ne.symm he)] at hk'
      rw [lower, Function.update_of_ne he]
      omega
  · rintro ⟨s, ⟨hs, hc⟩, rfl, h⟩ key hkey
    have hk' := h key hkey
    simp only [shotCount]
    by_cases he : key = outcome n es r
    · subst he
      rw [lower, Function.update_self] at hk'
      rw [if_pos rfl]
      omega
    · rw [lower, Function.update_of_ne he] at hk'
      rw [if_neg (Ne.symm he)]
      omega

theorem countsEvent_law {n : ℕ} {es : List Elem} (hv : ∀ e ∈ es, e.Valid n) (S : Finset String) (k : ℕ) :
    ∀ c : String → ℕ, ∑ x ∈ S, c x = k → MeasurableSet (countsEvent n es S k c) ∧
      randoms (countsEvent n es S k c) = ENNReal.ofReal (Nat.multinomial S c * ∏ key ∈ S, bornShot n es key ^ c key) := by
  induction k with
  | zero =>
    intro c hc
    have h0 : ∀ x ∈ S, c x = 0 := Finset.sum_eq_zero_iff.1 hc
    have hu : countsEvent n es S 0 c = Set.univ := by
      ext r
      simp only [countsEvent, Set.mem_setOf_eq, Set.mem_univ, iff_true]
      exact fun key hkey => (h0 key hkey).symm
    have h1 : Nat.multinomial S c = 1 := by
      have := Nat.multinomial_spec S c
      rw [hc, Finset.prod_congr rfl (fun x hx => by rw [h0 x hx])] at this
      simpa using this
    have h2 : ∏ key ∈ S, bornShot n es key ^ c key = 1 := by
      rw [Finset.prod_congr rfl (fun x hx => by rw [h0 x hx, pow_zero])]; simp
    rw [hu, h1, h2]
    exact ⟨.univ, by simp⟩
  | succ k ih =>
    intro c hc
    have hm : ∀ s ∈ S.filter (fun s => 0 < c s),
        MeasurableSet ({r | outcome n es r = s} ∩ leave n es ⁻¹' countsEvent n es S k (lower c s)) := by
      intro s hs
      obtain ⟨h1, h2⟩ := Finset.mem_filter.1 hs
      exact (outcome_measurable n es s).inter ((leave_preserving n es).measurable (ih _ (lower_sum h1 h2 hc)).1)
    rw [countsEvent_succ n es S k c hc]
    refine ⟨Finset.measurableSet_biUnion _ hm, ?_⟩
    rw [measure_biUnion_finset _ hm]
    · have h : ∀ s ∈ S.filter (fun s => 0 < c s),
          randoms ({r | outcome n es r = s} ∩ leave n es ⁻¹' countsEvent n es S k (lower c s)) =
            ENNReal.ofReal ((Nat.multinomial S (lower c s) : ℝ) * ∏ key ∈ S, bornShot n es key ^ c key) := by
        intro s hs
        obtain ⟨h1, h2⟩ := Finset.mem_filter.1 hs
        have hl := ih _ (lower_sum h1 h2 hc)
        rw [outcome_law hv s hl.1, hl.2, ← ENNReal.ofReal_mul (bornShot_nonneg hv s)]
        congr 1
        have hp : bornShot n es s ^ c s = bornShot n es s * bornShot n es s ^ (c s - 1) := by
          rw [← pow_succ']; congr 1; omega
        rw [lower_prod h1 h2 (fun x m => bornShot n es x ^ m) (bornShot n es s) hp]
        ring
      rw [Finset.sum_congr rfl h, ← ENNReal.ofReal_sum_of_nonneg, ← Finset.sum_mul, ← Nat.cast_sum, multinomial_pascal S c k hc]
      intro s _
      exact mul_nonneg (Nat.cast_nonneg _) (Finset.prod_nonneg fun x _ => pow_nonneg (bornShot_nonneg hv x) _)
    · intro s _ s' _ hss
      refine Set.disjoint_left.2 fun r hr hr' => hss ?_
      exact hr.1.symm.trans hr'.1

/-- C83. All counts of a run together follow the multinomial distribution of the Born probabilities: for every set of outcomes and all
numbers `c`, the run with as many shots gives each outcome exactly `c` times with this probability. -/
theorem C83_multinomial (n : ℕ) (hn : 0 < n) (gates : List Gate) (es : List Elem) (hd : GatesDenote n gates es)
    (hv : ∀ e ∈ es, e.Valid n) (ig : Bool) (S : Finset String) (c : String → ℕ) :
    randoms {r | ∀ key ∈ S, countIn (freshRun n gates ⟨some (∑ x ∈ S, c x : ℕ), none, ig, r⟩) key = c key} =
      ENNReal.ofReal (Nat.multinomial S c * ∏ key ∈ S, bornShot n es key ^ c key) := by
  rw [← (countsEvent_law hv S _ c rfl).2]
  refine measure_congr ?_
  filter_upwards [randoms_inUnit] with r hr
  refine propext ?_
  obtain ⟨cnt, rest, h1, h2⟩ := C16_counts_exact n hn gates es hd hv (∑ x ∈ S, c x) ig r hr
  have h : ∀ key, countIn (freshRun n gates ⟨some (∑ x ∈ S, c x : ℕ), none, ig, r⟩) key = shotCount n es (∑ x ∈ S, c x) r key := by
    intro key
    rw [h1, ← shotCount_eq, ← h2]; rfl
  show (∀ key ∈ S, _ = _) ↔ ∀ key ∈ S, _ = _
  simp only [h]

/-- `Circuit(1).h[0].m[0]` gives either bit with probability 1/2, so two of three shots give 1 with probability 3/8. -/
example (ig : Bool) : randoms {r | ∀ key ∈ ({"0", "1"} : Finset String),
    countIn (freshRun 1 [.g1 .h (.one (.int 0)), .measure (.one (.int 0))]
      ⟨some (∑ x ∈ ({"0", "1"} : Finset String), (fun s => if s = "1" then 2 else 1) x : ℕ), none, ig, r⟩) key =
      (fun s => if s = "1" then 2 else 1) key} = ENNReal.ofReal (3 / 8) := by
  have hb : ∀ b, b = "0" ∨ b = "1" → bornShot 1 [.one .h 0, .meas 0] b = 1 / 2 := by
    intro b hb
    rw [show [Elem.one .h 0, .meas 0] = [Elem.one .h 0] ++ [0].map Elem.meas from rfl,
      C83_terminal 1 [.one .h 0] (by simp [Elem.IsUnitary]) [0]]
    have h0 : bitString 1 (fun q => decide (q ∈ [0]) && (0 : ℕ).testBit q) = "0" := by decide
    have h1 : bitString 1 (fun q => decide (q ∈ [0]) && (1 : ℕ).testBit q) = "1" := by decide
    rw [show 2 ^ 1 = 2 from rfl, Finset.sum_range_succ, Finset.sum_range_one, h0, h1]
    rcases hb with rfl | rfl <;> simp [unitaries, Elem.unitary, matrix1, app, mH, flipBit]
  have hne : ¬("0" : String) = "1" := by decide
  rw [C83_multinomial 1 one_pos [.g1 .h (.one (.int 0)), .measure (.one (.int 0))] [.one .h 0, .meas 0] ⟨[.one .h 0], [.meas 0],
    ⟨[0], by rw [← slicing_eq_iff]; rfl, rfl⟩, ⟨[.meas 0], [], ⟨[0], by rw [← slicing_eq_iff]; rfl, rfl⟩, rfl, rfl⟩, rfl⟩
    (by simp [Elem.Valid]) ig, Nat.binomial_eq_choose (by decide), Finset.prod_pair (by decide), hb _ (.inl rfl), hb _ (.inr rfl)]
  congr 1
  simp only [hne, if_false, if_true]
  norm_num [Nat.choose]

end

end Blueqat
