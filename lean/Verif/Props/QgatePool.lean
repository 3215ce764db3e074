import Verif.Props.Qgate
import Mathlib.MeasureTheory.Measure.Lebesgue.Basic
import Mathlib.Tactic.FieldSimp
import Mathlib.Data.Nat.Nth

/-!
# C62: the distribution of the sampling pool
-/

set_option linter.unusedSimpArgs false
set_option linter.unusedVariables false

namespace Blueqat

open Spec

noncomputable section

theorem everyOther_even (f : ℕ → ℝ) (m : ℕ) : everyOther ((List.range (2 * m)).map f) = (List.range m).map (fun i => f (2 * i)) := by
  induction m generalizing f with
  | zero => rfl
  | succ m ih =>
    have e : 2 * (m + 1) = (2 * m) + 1 + 1 := by ring
    rw [e, List.range_succ_eq_map, List.range_succ_eq_map]
    simp only [List.map_cons, List.map_map, everyOther]
    rw [List.range_succ_eq_map (n := m)]
    simp only [List.map_cons, List.map_map]
    have := ih (fun i => f (i + 2))
    simp only [Function.comp_def] at this ⊢
    rw [show (fun x => f (x.succ.succ)) = (fun i => f (i + 2)) from rfl, this]
    rfl

theorem everyOther_odd (f : ℕ → ℝ) (m : ℕ) :
    everyOther (((List.range (2 * m)).map f).drop 1) = (List.range m).map (fun i => f (2 * i + 1)) := by
  cases m with
  | zero => rfl
  | succ m =>
    have e : 2 * (m + 1) = (2 * m + 1) + 1 := by ring
    rw [e, List.range_succ_eq_map]
    simp only [List.map_cons, List.map_map, List.drop_one, List.tail_cons]
    -- a list of odd length: drop the last element does not matter
    have h : ∀ (m : ℕ) (g : ℕ → ℝ), everyOther ((List.range (2 * m + 1)).map g) = (List.range (m + 1)).map (fun i => g (2 * i)) := by
      intro m
      induction m with
      | zero => intro g; rfl
      | succ m ih =>
        intro g
        have e : 2 * (m + 1) + 1 = (2 * m + 1) + 1 + 1 := by ring
        rw [e, List.range_succ_eq_map, List.range_succ_eq_map]
        simp only [List.map_cons, List.map_map, everyOther]
        rw [List.range_succ_eq_map (n := m + 1)]
        simp only [List.map_cons, List.map_map]
        have := ih (fun i => g (i + 2))
        simp only [Function.comp_def] at this ⊢
        rw [show (fun x => g (x.succ.succ)) = (fun i => g (i + 2)) from rfl, this]
        rfl
    exact h m (fun i => f (i + 1))

/-- The drawn bits as a function of the weights, without the accumulator. -/
def drawBits : ℕ → (ℕ → ℝ) → ℝ → (ℕ → ℝ) → ℕ
  | 0, _, _, _ => 0
  | m + 1, f, pAll, r =>
    let z := ((List.range (2 ^ m)).map (fun i => f (2 * i))).sum
    if r 0 < z / pAll then 2 * drawBits m (fun i => f (2 * i)) z (fun k => r (k + 1))
    else 2 * drawBits m (fun i => f (2 * i + 1)) (pAll - z) (fun k => r (k + 1)) + 1

theorem poolDraw_eq (m : ℕ) : ∀ (f : ℕ → ℝ) (pAll : ℝ) (rnd : ℕ → ℝ) (b v : ℕ), v < 2 ^ b →
    poolDraw rnd m b ((List.range (2 ^ m)).map f) pAll v = v + 2 ^ b * drawBits m f pAll (fun k => rnd (b + k)) := by
  induction m with
  | zero => intro f pAll rnd b v hv; simp [poolDraw, drawBits]
  | succ m ih =>
    intro f pAll rnd b v hv
    have e : 2 ^ (m + 1) = 2 * 2 ^ m := by ring
    simp only [poolDraw, drawBits]
    rw [e, everyOther_even, everyOther_odd]
    simp only [Nat.add_zero]
    have hr : (fun k => rnd (b + (k + 1))) = fun k => rnd (b + 1 + k) := by funext k; congr 1; omega
    rw [hr]
    split_ifs with h
    · rw [ih _ _ _ _ _ (hv.trans (Nat.pow_lt_pow_right (by norm_num) (Nat.lt_succ_self b)))]
      rw [pow_succ, mul_assoc]
    · have hor : v ||| 1 <<< b = v + 2 ^ b := by
        have := Nat.two_pow_add_eq_or_of_lt hv 1
        rw [mul_one] at this
        rw [Nat.one_shiftLeft, Nat.or_comm, add_comm, this]
      rw [hor, ih _ _ _ _ _ (by rw [pow_succ]; omega)]
      rw [pow_succ]; ring

/-- The probability that the bit is 0, bit by bit, on the way to `v`. -/
def threshold : ℕ → (ℕ → ℝ) → ℝ → ℕ → ℕ → ℝ
  | 0, _, _, _, _ => 0
  | m + 1, f, pAll, v, k =>
    let z := ((List.range (2 ^ m)).map (fun i => f (2 * i))).sum
    match k with
    | 0 => z / pAll
    | k + 1 => if v % 2 = 0 then threshold m (fun i => f (2 * i)) z (v / 2) k
      else threshold m (fun i => f (2 * i + 1)) (pAll - z) (v / 2) k

theorem drawBits_iff (m : ℕ) : ∀ (f : ℕ → ℝ) (pAll : ℝ) (r : ℕ → ℝ) (v : ℕ), v < 2 ^ m →
    (drawBits m f pAll r = v ↔ ∀ k < m, (r k < threshold m f pAll v k ↔ v.testBit k = false)) := by
  induction m with
  | zero => intro f pAll r v hv; have : v = 0 := by simpa using hv
            subst this; simp [drawBits]
  | succ m ih =>
    intro f pAll r v hv
    have hv2 : v / 2 < 2 ^ m := by rw [Nat.div_lt_iff_lt_mul (by norm_num)]; rw [pow_succ] at hv; exact hv
    have hsplit : (∀ k < m + 1, (r k < threshold (m + 1) f pAll v k ↔ v.testBit k = false)) ↔
        (r 0 < threshold (m + 1) f pAll v 0 ↔ v.testBit 0 = false) ∧
        ∀ k < m, (r (k + 1) < threshold (m + 1) f pAll v (k + 1) ↔ (v / 2).testBit k = false) := by
      constructor
      · intro h
        refine ⟨h 0 (by omega), fun k hk => ?_⟩
        rw [← Nat.testBit_succ]; exact h (k + 1) (by omega)
      · rintro ⟨h1, h2⟩ k hk
        cases k with
        | zero => exact h1
        | succ k => rw [Nat.testBit_succ]; exact h2 k (by omega)
    rw [hsplit]
    simp only [drawBits, threshold]
    set z := ((List.range (2 ^ m)).map (fun i => f (2 * i))).sum
    have h0 : v.testBit 0 = false ↔ v % 2 = 0 := by simp [Nat.testBit_zero]
    rw [h0]
    by_cases hv0 : v % 2 = 0
    · simp only [hv0, iff_true, if_true]
      rw [← ih (fun i => f (2 * i)) z (fun k => r (k + 1)) (v / 2) hv2]
      by_cases hr : r 0 < z / pAll
      · simp only [hr, if_true, true_and]; omega
      · simp only [hr, if_false, false_and, iff_false]; omega
    · simp only [hv0, iff_false, if_false]
      rw [← ih (fun i => f (2 * i + 1)) (pAll - z) (fun k => r (k + 1)) (v / 2) hv2]
      by_cases hr : r 0 < z / pAll
      · simp only [hr, if_true, not_true_eq_false, false_and, iff_false]; omega
      · simp only [hr, if_false, not_false_eq_true, true_and]; omega

theorem sum_even_odd (f : ℕ → ℝ) (m : ℕ) : ((List.range (2 * m)).map f).sum =
    ((List.range m).map (fun i => f (2 * i))).sum + ((List.range m).map (fun i => f (2 * i + 1))).sum := by
  induction m with
  | zero => simp
  | succ m ih =>
    rw [show 2 * (m + 1) = 2 * m + 1 + 1 by ring, List.range_succ, List.range_succ, List.range_succ]
    simp only [List.map_append, List.sum_append, List.map_cons, List.map_nil, List.sum_cons, List.sum_nil, add_zero, ih]
    ring

/-- The length of the interval of random numbers that gives bit `k` of `v`. -/
def bitLength (m : ℕ) (f : ℕ → ℝ) (pAll : ℝ) (v k : ℕ) : ℝ :=
  if v.testBit k then 1 - threshold m f pAll v k else threshold m f pAll v k

theorem threshold_spec (m : ℕ) : ∀ (f : ℕ → ℝ) (pAll : ℝ) (v : ℕ), v < 2 ^ m → (∀ i < 2 ^ m, 0 ≤ f i) →
    ((List.range (2 ^ m)).map f).sum = pAll →
    (∀ k < m, 0 ≤ threshold m f pAll v k ∧ threshold m f pAll v k ≤ 1) ∧
    pAll * ∏ k ∈ Finset.range m, bitLength m f pAll v k = f v := by
  induction m with
  | zero =>
    intro f pAll v hv _ hs
    have : v = 0 := by simpa using hv
    subst this
    simpa using hs.symm
  | succ m ih =>
    intro f pAll v hv hf hs
    have hv2 : v / 2 < 2 ^ m := by rw [Nat.div_lt_iff_lt_mul (by norm_num)]; rw [pow_succ] at hv; exact hv
    have hp : 2 ^ (m + 1) = 2 * 2 ^ m := by ring
    rw [hp] at hs hf
    rw [sum_even_odd] at hs
    set z := ((List.range (2 ^ m)).map (fun i => f (2 * i))).sum with hz
    set o := ((List.range (2 ^ m)).map (fun i => f (2 * i + 1))).sum with ho
    have hz0 : 0 ≤ z := List.sum_nonneg (by
      simp only [List.mem_map, List.mem_range]; rintro _ ⟨i, hi, rfl⟩; exact hf _ (by omega))
    have ho0 : 0 ≤ o := List.sum_nonneg (by
      simp only [List.mem_map, List.mem_range]; rintro _ ⟨i, hi, rfl⟩; exact hf _ (by omega))
    have e0 := ih (fun i => f (2 * i)) z (v / 2) hv2 (fun i hi => hf _ (by omega)) hz.symm
    have e1 := ih (fun i => f (2 * i + 1)) (pAll - z) (v / 2) hv2 (fun i hi => hf _ (by omega)) (by rw [← ho]; linarith)
    have ht0 : threshold (m + 1) f pAll v 0 = z / pAll := rfl
    have hts : ∀ k, threshold (m + 1) f pAll v (k + 1) = if v % 2 = 0 then threshold m (fun i => f (2 * i)) z (v / 2) k
      else threshold m (fun i => f (2 * i + 1)) (pAll - z) (v / 2) k := fun k => rfl
    have hbs : ∀ k, bitLength (m + 1) f pAll v (k + 1) = if v % 2 = 0 then bitLength m (fun i => f (2 * i)) z (v / 2) k
      else bitLength m (fun i => f (2 * i + 1)) (pAll - z) (v / 2) k := by
      intro k
      simp only [bitLength, hts, Nat.testBit_succ]
      split_ifs <;> rfl
    refine ⟨?_, ?_⟩
    · intro k hk
      cases k with
      | zero =>
        rw [ht0]
        refine ⟨div_nonneg hz0 (by linarith), div_le_one_of_le₀ (by linarith) (by linarith)⟩
      | succ k =>
        rw [hts]
        split_ifs
        · exact e0.1 k (by omega)
        · exact e1.1 k (by omega)
    · rw [Finset.prod_range_succ']
      simp only [hbs]
      by_cases hv0 : v % 2 = 0
      · simp only [hv0, if_true]
        have hb : bitLength (m + 1) f pAll v 0 = z / pAll := by
          simp [bitLength, ht0, Nat.testBit_zero, hv0]
        rw [hb]
        have hfin := e0.2
        beta_reduce at hfin
        rw [show 2 * (v / 2) = v by omega] at hfin
        rw [← hfin]
        by_cases hpz : pAll = 0
        · have : z = 0 := by linarith
          simp [hpz, this]
        · field_simp
      · simp only [hv0, if_false]
        have hb : bitLength (m + 1) f pAll v 0 = 1 - z / pAll := by
          have : v % 2 = 1 := by omega
          simp [bitLength, ht0, Nat.testBit_zero, this]
        rw [hb]
        have hfin := e1.2
        beta_reduce at hfin
        rw [show 2 * (v / 2) + 1 = v by omega] at hfin
        rw [← hfin]
        by_cases hpz : pAll = 0
        · have : z = 0 := by linarith
          simp [hpz, this]
        · field_simp

/-- C62. The pool draws the value `v` with probability `prob[v]`: for independent random numbers that are uniform on
`[0, 1)`, the set of those for which `v` is drawn has measure `prob[v]`. -/
theorem C62_probability (m : ℕ) (prob : List ℝ) (hl : prob.length = 2 ^ m) (hp : ∀ p ∈ prob, 0 ≤ p) (hs : prob.sum = 1)
    (v : ℕ) (p : ℝ) (hv : prob[v]? = some p) :
    MeasureTheory.volume {r : Fin m → ℝ | (∀ k, 0 ≤ r k ∧ r k < 1) ∧
      poolDraw (fun k => if h : k < m then r ⟨k, h⟩ else 0) m 0 prob 1 0 = v} = ENNReal.ofReal p := by
  obtain ⟨hvl, hv⟩ := List.getElem?_eq_some_iff.1 hv
  set f : ℕ → ℝ := fun i => prob.getD i 0 with hf
  have hprob : prob = (List.range (2 ^ m)).map f := by
    refine List.ext_getElem (by simp [hl]) (fun i h1 h2 => ?_)
    simp [hf, List.getD_eq_getElem?_getD, h1]
  have hfv : f v = p := by simp [hf, List.getD_eq_getElem?_getD, hvl, hv]
  have hf0 : ∀ i < 2 ^ m, 0 ≤ f i := by
    intro i hi
    have : i < prob.length := by omega
    simp only [hf, List.getD_eq_getElem?_getD, List.getElem?_eq_getElem this, Option.getD_some]
    exact hp _ (List.getElem_mem this)
  rw [hl] at hvl
  obtain ⟨t1, t2⟩ := threshold_spec m f 1 v hvl hf0 (by rw [← hprob, hs])
  rw [one_mul, hfv] at t2
  have hset : {r : Fin m → ℝ | (∀ k, 0 ≤ r k ∧ r k < 1) ∧
      poolDraw (fun k => if h : k < m then r ⟨k, h⟩ else 0) m 0 prob 1 0 = v} =
      Set.pi Set.univ (fun k : Fin m => Set.Ico (if v.testBit k then threshold m f 1 v k else 0)
        (if v.testBit k then 1 else threshold m f 1 v k)) := by
    ext r
    simp only [Set.mem_setOf_eq, Set.mem_pi, Set.mem_univ, true_implies, Set.mem_Ico]
    rw [hprob, poolDraw_eq m f 1 _ 0 0 (by simp)]
    simp only [pow_zero, one_mul, zero_add]
    rw [drawBits_iff m f 1 _ v hvl]
    constructor
    · rintro ⟨h1, h2⟩ k
      have h3 := h2 k k.2
      simp only [k.2, dif_pos, Fin.eta] at h3
      by_cases hb : v.testBit k = true
      · simp only [hb, if_true]
        rw [hb] at h3
        simp at h3
        exact ⟨h3, (h1 k).2⟩
      · simp only [hb, if_false]
        exact ⟨(h1 k).1, h3.2 (by simpa using hb)⟩
    · intro h
      constructor
      · intro k
        have h3 := h k
        have h4 := t1 k k.2
        by_cases hb : v.testBit k = true
        · simp only [hb, if_true] at h3; exact ⟨h4.1.trans h3.1, h3.2⟩
        · simp only [hb, if_false] at h3; exact ⟨h3.1, h3.2.trans_le h4.2⟩
      · intro k hk
        have h3 := h ⟨k, hk⟩
        simp only [hk, dif_pos]
        by_cases hb : v.testBit k = true
        · simp only [hb, if_true] at h3
          simp [hb, h3.1]
        · simp only [hb, if_false] at h3
          have h5 := h3.2
          simp [hb]
          exact h5
  rw [hset, Real.volume_pi_Ico]
  rw [← t2, Finset.prod_range, ENNReal.ofReal_prod_of_nonneg]
  · refine Finset.prod_congr rfl (fun k _ => ?_)
    simp only [bitLength]
    split_ifs <;> simp
  · intro k _
    have h4 := t1 k k.2
    simp only [bitLength]
    split_ifs <;> linarith

/-- A quarter, zero, a half, a quarter: the hypotheses hold, and 2 is drawn with probability one half. -/
example : MeasureTheory.volume {r : Fin 2 → ℝ | (∀ k, 0 ≤ r k ∧ r k < 1) ∧
    poolDraw (fun k => if h : k < 2 then r ⟨k, h⟩ else 0) 2 0 [1 / 4, 0, 1 / 2, 1 / 4] 1 0 = 2} = ENNReal.ofReal (1 / 2) :=
  C62_probability 2 [1 / 4, 0, 1 / 2, 1 / 4] rfl (by simp) (by norm_num) 2 _ rfl

/-- C62. Every sample uses its own random numbers; the drawn values are returned as drawn, and with empty lanes (in increasing
order) they are spread over the other lanes. -/
theorem C62_samples (prob : List ℝ) (lanes : List ℕ) (hl : lanes.Pairwise (· < ·)) (width : ℕ) (rnd : ℕ → ℕ → ℝ) (nSamples : ℕ) :
    ∃ obs : List ℕ, poolSample prob lanes width rnd nSamples = .ok (obs.map (fun v : ℕ => (v : ℤ))) ∧ obs.length = nSamples ∧
      ∀ idx r, obs[idx]? = some r → Spread lanes (poolDraw (rnd idx) width 0 prob 1 0) r := by
  set drawn : List ℕ := (List.range nSamples).map (fun idx => poolDraw (rnd idx) width 0 prob 1 0) with hd
  have hobs : (List.range nSamples).map (fun idx => ((poolDraw (rnd idx) width 0 prob 1 0 : ℕ) : ℤ)) =
      drawn.map (fun v : ℕ => (v : ℤ)) := by rw [hd, List.map_map]; rfl
  have hget : ∀ idx v, drawn[idx]? = some v → v = poolDraw (rnd idx) width 0 prob 1 0 := by
    intro idx v h
    by_cases hi : idx < nSamples
    · rw [hd, List.getElem?_map, List.getElem?_range hi] at h
      simpa using h.symm
    · rw [List.getElem?_eq_none (by simp [hd]; omega)] at h; simp at h
  by_cases h0 : lanes = []
  · subst h0
    refine ⟨drawn, by simp only [poolSample, ne_eq, not_true_eq_false, if_false, hobs], by simp [hd], fun idx r h => ?_⟩
    rw [← hget idx r h]
    intro lane
    simp
  · obtain ⟨res, h1, h2⟩ := C59_lanes lanes h0 hl drawn
    refine ⟨res, by simp only [poolSample, ne_eq, h0, not_false_eq_true, if_true, hobs, h1], by rw [← h2.length_eq]; simp [hd], ?_⟩
    intro idx r h
    obtain ⟨hi, hr⟩ := List.getElem?_eq_some_iff.1 h
    have hi' : idx < drawn.length := by rw [h2.length_eq]; exact hi
    have := (List.forall₂_iff_get.1 h2).2 idx hi' hi
    rw [← hget idx _ (List.getElem?_eq_getElem hi')]
    simpa [hr] using this

/-- Two empty lanes. -/
example : ([1, 4] : List ℕ).Pairwise (· < ·) := by decide

theorem spread_right {lanes : List ℕ} {v r r' : ℕ} (h : Spread lanes v r) (h' : Spread lanes v r') : r = r' :=
  Nat.eq_of_testBit_eq (fun i => by rw [h i, h' i])

theorem spread_left {lanes : List ℕ} {v v' r : ℕ} (h : Spread lanes v r) (h' : Spread lanes v' r) : v = v' := by
  refine Nat.eq_of_testBit_eq (fun j => ?_)
  have hinf : (setOf (fun l => l ∉ lanes)).Infinite := by
    have : (setOf (fun l => l ∉ lanes)) = ((lanes.toFinset : Set ℕ))ᶜ := by ext x; simp [Set.mem_setOf_eq]; rfl
    rw [this]
    exact (Finset.finite_toSet _).infinite_compl
  have hm : Nat.nth (fun l => l ∉ lanes) j ∉ lanes := Nat.nth_mem_of_infinite hinf j
  have hc : ((List.range (Nat.nth (fun l => l ∉ lanes) j)).filter (fun l => l ∉ lanes)).length = j := by
    rw [← List.countP_eq_length_filter, ← Nat.count]
    exact Nat.count_nth_of_infinite hinf j
  have h1 := h (Nat.nth (fun l => l ∉ lanes) j)
  have h2 := h' (Nat.nth (fun l => l ∉ lanes) j)
  rw [if_neg hm, hc] at h1 h2
  rw [← h1, ← h2]

/-- C62. The samples are independent: a list of samples is returned with the product of the probabilities of the values it
shows. -/
theorem C62_joint (m N : ℕ) (prob : List ℝ) (hl : prob.length = 2 ^ m) (hp : ∀ p ∈ prob, 0 ≤ p) (hs : prob.sum = 1)
    (lanes : List ℕ) (hlanes : lanes.Pairwise (· < ·)) (v : Fin N → ℕ) (p : Fin N → ℝ) (hv : ∀ i, prob[v i]? = some (p i))
    (obs : Fin N → ℕ) (ho : ∀ i, Spread lanes (v i) (obs i)) :
    MeasureTheory.volume {R : Fin N → Fin m → ℝ | (∀ i k, 0 ≤ R i k ∧ R i k < 1) ∧
      poolSample prob lanes m (fun i k => if h : i < N ∧ k < m then R ⟨i, h.1⟩ ⟨k, h.2⟩ else 0) N =
        .ok (List.ofFn (fun i => (obs i : ℤ)))} = ∏ i, ENNReal.ofReal (p i) := by
  have hset : {R : Fin N → Fin m → ℝ | (∀ i k, 0 ≤ R i k ∧ R i k < 1) ∧
      poolSample prob lanes m (fun i k => if h : i < N ∧ k < m then R ⟨i, h.1⟩ ⟨k, h.2⟩ else 0) N =
        .ok (List.ofFn (fun i => (obs i : ℤ)))} =
      Set.pi Set.univ (fun i => {r : Fin m → ℝ | (∀ k, 0 ≤ r k ∧ r k < 1) ∧
        poolDraw (fun k => if h : k < m then r ⟨k, h⟩ else 0) m 0 prob 1 0 = v i}) := by
    ext R
    simp only [Set.mem_setOf_eq, Set.mem_pi, Set.mem_univ, forall_true_left]
    obtain ⟨res, h1, h2, h3⟩ := C62_samples prob lanes hlanes m
      (fun i k => if h : i < N ∧ k < m then R ⟨i, h.1⟩ ⟨k, h.2⟩ else 0) N
    have hd : ∀ i : Fin N, (fun k => if h : (i : ℕ) < N ∧ k < m then R ⟨i, h.1⟩ ⟨k, h.2⟩ else 0) =
        (fun k => if h : k < m then R i ⟨k, h⟩ else 0) := by
      intro i
      funext k
      by_cases hk : k < m
      · simp [hk]
      · simp [hk]
    have h4 : ∀ i : Fin N, Spread lanes (poolDraw (fun k => if h : k < m then R i ⟨k, h⟩ else 0) m 0 prob 1 0)
        (res[(i : ℕ)]'(by rw [h2]; exact i.2)) := by
      intro i
      rw [← hd i]
      exact h3 i _ (List.getElem?_eq_getElem _)
    have hres : res.map (fun v : ℕ => (v : ℤ)) = List.ofFn (fun i => (obs i : ℤ)) ↔
        ∀ i : Fin N, res[(i : ℕ)]'(by rw [h2]; exact i.2) = obs i := by
      constructor
      · intro h i
        have := congrArg (fun l => l[(i : ℕ)]?) h
        have hi : (i : ℕ) < res.length := by rw [h2]; exact i.2
        simp [hi] at this
        exact this
      · intro h
        refine List.ext_getElem (by simp [h2]) (fun i a b => ?_)
        have hi : i < N := by simpa using b
        have := h ⟨i, hi⟩
        simp at this ⊢
        exact this
    rw [h1, Except.ok.injEq, hres]
    constructor
    · rintro ⟨hb, hr⟩ i
      refine ⟨hb i, ?_⟩
      have := h4 i
      rw [hr i] at this
      exact spread_left this (ho i)
    · intro h
      refine ⟨fun i => (h i).1, fun i => ?_⟩
      have := h4 i
      rw [(h i).2] at this
      exact spread_right this (ho i)
  rw [hset, MeasureTheory.volume_pi_pi]
  exact Finset.prod_congr rfl (fun i _ => C62_probability m prob hl hp hs (v i) (p i) (hv i))

/-- Three samples of two qubits in the lanes 0 and 2, lane 1 being empty: 0, 4 and 4 with probability 1/4 · 1/2 · 1/2. -/
example : ([1 / 4, 0, 1 / 2, 1 / 4] : List ℝ).length = 2 ^ 2 ∧ ([1] : List ℕ).Pairwise (· < ·) ∧ Spread [1] 0 0 ∧ Spread [1] 2 4 := by
  refine ⟨rfl, by decide, fun lane => by simp, fun lane => ?_⟩
  rcases lane with _ | _ | _ | lane
  · decide
  · decide
  · decide
  · have h1 : Nat.testBit 4 (lane + 1 + 1 + 1) = false := Nat.testBit_lt_two_pow (by
      have : 2 ^ 3 ≤ 2 ^ (lane + 3) := Nat.pow_le_pow_right (by norm_num) (by omega)
      calc 4 < 2 ^ 3 := by norm_num
        _ ≤ _ := this)
    have h2 : ((List.range (lane + 1 + 1 + 1)).filter (fun l => l ∉ [1])).length ≥ 2 := by
      rw [show lane + 1 + 1 + 1 = 3 + lane by ring, List.range_add, List.filter_append, List.length_append]
      have : ((List.range 3).filter (fun l => l ∉ [1])).length = 2 := by decide
      omega
    rw [h1, if_neg (by simp)]
    refine (Nat.testBit_lt_two_pow ?_).symm
    calc 2 < 2 ^ 2 := by norm_num
      _ ≤ _ := Nat.pow_le_pow_right (by norm_num) h2

end

end Blueqat
