import Verif.Vqe
import Verif.Spec.Vqe
import Verif.PauliLemmas
import Verif.Props.Utils

/-!
# Property C43: `expect` returns marginal probabilities
-/

set_option linter.unusedSimpArgs false
set_option linter.unusedVariables false

namespace Blueqat

open Spec

noncomputable section

theorem expectMask_nat (meas : List ℕ) : ∀ acc, ∃ m, expectMask (meas.map (fun q : ℕ => (q : ℤ))) acc = .ok m ∧
    ∀ q, m.testBit q = (acc.testBit q || decide (q ∈ meas)) := by
  induction meas with
  | nil => intro acc; exact ⟨acc, rfl, by simp⟩
  | cons v meas ih =>
    intro acc
    obtain ⟨m, h1, h2⟩ := ih (acc ||| (1 <<< v))
    refine ⟨m, ?_, fun q => ?_⟩
    · simp only [List.map_cons, expectMask]
      rw [if_neg (by simp)]
      simpa using h1
    · rw [h2, Nat.testBit_or, Nat.one_shiftLeft, Nat.testBit_two_pow]
      by_cases h : v = q
      · simp [h]
      · simp [h, Ne.symm h]

theorem and_shift_ne_zero (k q : ℕ) : k &&& (1 <<< q) ≠ 0 ↔ k.testBit q = true := by
  rw [Nat.one_shiftLeft, Nat.and_two_pow]
  cases k.testBit q <;> simp

theorem expectKey_nat (meas : List ℕ) (k : ℕ) : expectKey (meas.map (fun q : ℕ => (q : ℤ))) k = bitsAt meas k := by
  simp only [expectKey, bitsAt, List.map_map]
  refine List.map_congr_left (fun q _ => ?_)
  simp only [Function.comp_apply, Int.toNat_natCast, and_shift_ne_zero]

theorem bitsAt_eq_iff (meas : List ℕ) (i j : ℕ) : bitsAt meas i = bitsAt meas j ↔ ∀ q ∈ meas, i.testBit q = j.testBit q := by
  simp only [bitsAt, List.map_inj_left]
  refine forall₂_congr (fun q _ => ?_)
  cases i.testBit q <;> cases j.testBit q <;> simp

theorem bitsAt_mask {meas : List ℕ} {m : ℕ} (hm : ∀ q, m.testBit q = decide (q ∈ meas)) (i : ℕ) :
    bitsAt meas (i &&& m) = bitsAt meas i := by
  rw [bitsAt_eq_iff]
  intro q hq
  simp [hm, hq]

theorem mask_eq_iff {meas : List ℕ} {m : ℕ} (hm : ∀ q, m.testBit q = decide (q ∈ meas)) (i j : ℕ) :
    i &&& m = j &&& m ↔ bitsAt meas i = bitsAt meas j := by
  rw [bitsAt_eq_iff]
  constructor
  · intro h q hq
    have := congrArg (fun k => k.testBit q) h
    simpa [hm, hq] using this
  · intro h
    refine Nat.eq_of_testBit_eq (fun q => ?_)
    by_cases hq : q ∈ meas
    · simp [h q hq]
    · simp [hm, hq]

theorem re_im_sq (z : ℂ) : z.re ^ 2 + z.im ^ 2 = ‖z‖ ^ 2 := by
  rw [← Complex.normSq_eq_norm_sq, Complex.normSq_apply]; ring

/-- What the loop has collected under `k`. -/
def collected (mask : ℕ) (v : List ℂ) (m k : ℕ) : ℝ :=
  ∑ i ∈ (Finset.range m).filter (fun i => i &&& mask = k), ‖v.getD i 0‖ ^ 2

theorem collected_nonneg (mask : ℕ) (v : List ℂ) (m k : ℕ) : 0 ≤ collected mask v m k :=
  Finset.sum_nonneg (fun _ _ => by positivity)

open Classical in
theorem expectLoop_spec (mask : ℕ) (v : List ℂ) : ∀ (rest : List ℂ) (m : ℕ) (cnt : PyDict ℕ ℝ),
    (∃ pre, v = pre ++ rest ∧ pre.length = m) → cnt.WF → (∀ p ∈ cnt, p.1 &&& mask = p.1) →
    (∀ k, cnt.get k = if collected mask v m k = 0 then none else some (collected mask v m k)) →
    (expectLoop mask m rest cnt).WF ∧ (∀ p ∈ expectLoop mask m rest cnt, p.1 &&& mask = p.1) ∧
    ∀ k, (expectLoop mask m rest cnt).get k =
      if collected mask v v.length k = 0 then none else some (collected mask v v.length k) := by
  intro rest
  induction rest with
  | nil =>
    rintro m cnt ⟨pre, h1, h2⟩ hw hk hc
    have : v.length = m := by rw [h1]; simpa using h2
    rw [this]
    exact ⟨hw, hk, hc⟩
  | cons z rest ih =>
    rintro m cnt ⟨pre, h1, h2⟩ hw hk hc
    have hz : v.getD m 0 = z := by subst h2; rw [h1]; simp
    have hstep : ∀ k, collected mask v (m + 1) k = collected mask v m k + if m &&& mask = k then ‖z‖ ^ 2 else 0 := by
      intro k
      simp only [collected, Finset.range_add_one, Finset.filter_insert]
      split_ifs with h
      · rw [Finset.sum_insert (by simp), hz, add_comm]
      · simp
    simp only [expectLoop]
    rw [re_im_sq]
    refine ih (m + 1) _ ⟨pre ++ [z], by simp [h1], by simp [h2]⟩ ?_ ?_ ?_
    · split_ifs
      · exact PyDict.wf_set hw _ _
      · exact hw
    · split_ifs with hp
      · rintro ⟨a, b⟩ hm
        have : a ∈ (cnt.set (m &&& mask) ((cnt.get (m &&& mask)).getD 0 + ‖z‖ ^ 2)).map Prod.fst :=
          List.mem_map_of_mem hm
        rw [PyDict.mem_map_fst_set] at this
        rcases this with h | h
        · show a &&& mask = a
          rw [h, Nat.and_assoc, Nat.and_self]
        · obtain ⟨p, hp, rfl⟩ := List.mem_map.1 h
          exact hk p hp
      · exact hk
    · intro k
      by_cases hp : ‖z‖ ^ 2 = 0
      · rw [if_neg (by simpa using hp), hc, hstep, hp]; simp
      · rw [if_pos hp, PyDict.get_set, hstep]
        by_cases hkm : k = m &&& mask
        · subst hkm
          have h0 := collected_nonneg mask v m (m &&& mask)
          have h3 : 0 < ‖z‖ ^ 2 := lt_of_le_of_ne (by positivity) (Ne.symm hp)
          rw [if_pos rfl, if_pos rfl, if_neg (by linarith), hc]
          split_ifs with h4
          · simp [h4]
          · simp
        · rw [if_neg hkm, if_neg (Ne.symm hkm), add_zero, hc]

theorem collected_eq {meas : List ℕ} {m : ℕ} (hm : ∀ q, m.testBit q = decide (q ∈ meas)) (v : List ℂ) (j : ℕ) :
    collected m v v.length (j &&& m) = outcomeProb v meas (bitsAt meas j) := by
  simp only [collected, outcomeProb]
  congr 1
  refine Finset.filter_congr (fun i _ => ?_)
  rw [mask_eq_iff hm]

/-- Reading a dictionary whose keys were replaced one-to-one. -/
theorem PyDict.get_map_key {α β γ : Type} [DecidableEq α] [DecidableEq γ] (f : α → γ) (d : PyDict α β) (k : α)
    (h : ∀ p ∈ d, f p.1 = f k → p.1 = k) : PyDict.get (d.map (fun p => (f p.1, p.2))) (f k) = d.get k := by
  induction d with
  | nil => rfl
  | cons p d ih =>
    obtain ⟨a, b⟩ := p
    have ih := ih (fun p hp => h p (by simp [hp]))
    simp only [List.map_cons, PyDict.get]
    by_cases ha : a = k
    · simp [ha]
    · rw [if_neg ha, if_neg (fun e => ha (h (a, b) (by simp) e))]
      exact ih

theorem sum_getD (f : ℂ → ℝ) (v : List ℂ) : ∑ i ∈ Finset.range v.length, f (v.getD i 0) = (v.map f).sum := by
  induction v with
  | nil => simp
  | cons z v ih =>
    rw [List.length_cons, Finset.sum_range_succ']
    rw [List.map_cons, List.sum_cons, ← ih, add_comm]
    simp

theorem values_sum {α : Type} [DecidableEq α] (d : PyDict α ℝ) (h : d.WF) :
    (d.map Prod.snd).sum = ∑ k ∈ (d.map Prod.fst).toFinset, (d.get k).getD 0 := by
  induction d with
  | nil => simp
  | cons p d ih =>
    obtain ⟨a, b⟩ := p
    have hn : a ∉ d.map Prod.fst ∧ (d.map Prod.fst).Nodup := by simpa [PyDict.WF] using h
    rw [List.map_cons, List.sum_cons, List.map_cons, List.toFinset_cons, Finset.sum_insert (by simpa using hn.1), ih hn.2]
    congr 1
    · simp [PyDict.get]
    · refine Finset.sum_congr rfl (fun k hk => ?_)
      have : a ≠ k := by rintro rfl; exact hn.1 (by simpa using hk)
      simp [PyDict.get, this]

open Classical in
/-- C43. For every list of amplitudes and every list of qubits, also with repetitions, `expect` returns a dictionary
with the probability of every outcome that has non-zero probability and no other key; the values add up to the squared
norm. -/
theorem C43_expect (v : List ℂ) (meas : List ℕ) :
    ∃ d, expect v (meas.map (fun q : ℕ => (q : ℤ))) = .ok d ∧ (d.map Prod.fst).Nodup ∧
      (∀ key, d.get key = if outcomeProb v meas key = 0 then none else some (outcomeProb v meas key)) ∧
      (d.map Prod.snd).sum = (v.map (fun z => ‖z‖ ^ 2)).sum := by
  obtain ⟨m, h1, h2⟩ := expectMask_nat meas 0
  have hm : ∀ q, m.testBit q = decide (q ∈ meas) := by simpa using h2
  obtain ⟨hw, hk, hc⟩ := expectLoop_spec m v v 0 [] ⟨[], by simp, rfl⟩ (by simp [PyDict.WF]) (by simp)
    (by simp [PyDict.get, collected])
  set cnt := expectLoop m 0 v [] with hcnt
  have hinj : ∀ p ∈ cnt, ∀ j, bitsAt meas p.1 = bitsAt meas j → p.1 = j &&& m := by
    intro p hp j h
    rw [← hk p hp, mask_eq_iff hm, h]
  have hnd : (cnt.map (fun p => bitsAt meas p.1)).Nodup := by
    rw [show (fun p : ℕ × ℝ => bitsAt meas p.1) = (bitsAt meas) ∘ Prod.fst from rfl, ← List.map_map]
    refine List.Nodup.map_on ?_ hw
    intro x hx y hy hxy
    obtain ⟨p, hp, rfl⟩ := List.mem_map.1 hx
    obtain ⟨q, hq, rfl⟩ := List.mem_map.1 hy
    rw [hinj p hp q.1 hxy, hk q hq]
  have hd : cnt.foldl (fun (r : PyDict (List ℕ) ℝ) p => r.set (expectKey (meas.map (fun q : ℕ => (q : ℤ))) p.1) p.2) ([] : PyDict (List ℕ) ℝ) =
      cnt.map (fun p => (bitsAt meas p.1, p.2)) := by
    have := PyDict.foldl_set (bitsAt meas) cnt [] (by simpa using hnd)
    simpa [expectKey_nat] using this
  have hget : ∀ key, PyDict.get (cnt.map (fun p => (bitsAt meas p.1, p.2))) key =
      if outcomeProb v meas key = 0 then none else some (outcomeProb v meas key) := by
    intro key
    by_cases hex : ∃ j, bitsAt meas j = key
    · obtain ⟨j, rfl⟩ := hex
      rw [← bitsAt_mask hm j, PyDict.get_map_key (bitsAt meas) cnt (j &&& m), hc, collected_eq hm, bitsAt_mask hm]
      intro p hp h
      rw [hinj p hp _ h, Nat.and_assoc, Nat.and_self]
    · have h0 : outcomeProb v meas key = 0 := by
        refine Finset.sum_eq_zero (fun i hi => ?_)
        exact absurd ⟨i, (Finset.mem_filter.1 hi).2⟩ hex
      rw [if_pos h0, PyDict.get_eq_none]
      intro hmem
      simp only [List.map_map, List.mem_map, Function.comp_apply] at hmem
      obtain ⟨p, -, h⟩ := hmem
      exact hex ⟨_, h⟩
  refine ⟨cnt.map (fun p => (bitsAt meas p.1, p.2)), ?_, ?_, hget, ?_⟩
  · simp only [expect, h1, bind, Except.bind]
    rw [← hcnt, hd]
  · simpa [List.map_map, Function.comp_def] using hnd
  · have hsum := values_sum (cnt.map (fun p => (bitsAt meas p.1, p.2))) (by
      simpa [PyDict.WF, List.map_map, Function.comp_def] using hnd)
    rw [hsum, ← sum_getD]
    set K := ((cnt.map (fun p => (bitsAt meas p.1, p.2))).map Prod.fst).toFinset with hK
    have e1 : ∀ key, (PyDict.get (cnt.map (fun p => (bitsAt meas p.1, p.2))) key).getD 0 = outcomeProb v meas key := by
      intro key; rw [hget]; split_ifs with h <;> simp [h]
    rw [Finset.sum_congr rfl (fun key _ => e1 key)]
    have e2 : ∑ i ∈ Finset.range v.length, ‖v.getD i 0‖ ^ 2 =
        ∑ key ∈ (Finset.range v.length).image (bitsAt meas), outcomeProb v meas key := by
      simp only [outcomeProb]
      rw [Finset.sum_fiberwise_of_maps_to]
      intro i hi; exact Finset.mem_image_of_mem _ hi
    rw [e2]
    refine Finset.sum_subset_zero_on_sdiff ?_ ?_ (fun _ _ => rfl)
    · intro key hkey
      by_contra hne
      have h0 : outcomeProb v meas key = 0 := by
        refine Finset.sum_eq_zero (fun i hi => ?_)
        have := Finset.mem_filter.1 hi
        exact absurd (Finset.mem_image.2 ⟨i, this.1, this.2⟩) hne
      have := hget key
      rw [if_pos h0, PyDict.get_eq_none] at this
      exact this (by simpa [hK] using hkey)
    · intro key hkey
      have hnot : key ∉ (cnt.map (fun p => (bitsAt meas p.1, p.2))).map Prod.fst := by
        have := (Finset.mem_sdiff.1 hkey).2
        simpa [hK] using this
      have := hget key
      rw [PyDict.get_eq_none.2 hnot] at this
      by_contra h
      rw [if_neg h] at this
      cases this

/-- C43. A negative qubit number is rejected with ValueError. -/
theorem C43_negative (v : List ℂ) (meas : List ℤ) (h : ∃ q ∈ meas, q < 0) : expect v meas = .error .valueError := by
  have : ∀ acc, expectMask meas acc = .error .valueError := by
    induction meas with
    | nil => simp at h
    | cons a meas ih =>
      intro acc
      simp only [expectMask]
      split_ifs with ha
      · rfl
      · refine ih ?_ _
        obtain ⟨q, hq, hneg⟩ := h
        rcases List.mem_cons.1 hq with rfl | hq
        · exact absurd hneg ha
        · exact ⟨q, hq, hneg⟩
  simp [expect, this, bind, Except.bind]

/-- The Bell state, qubit 1 measured twice: two outcomes of probability 1/2. -/
example : ∃ d, expect [(1 / √2 : ℝ), 0, 0, (1 / √2 : ℝ)] [1, 1] = .ok d ∧ d.get [1, 1] = some (1 / 2) ∧
    d.get [0, 1] = none := by
  obtain ⟨d, h1, -, h3, -⟩ := C43_expect [(1 / √2 : ℝ), 0, 0, (1 / √2 : ℝ)] [1, 1]
  have hs : (‖((1 / √2 : ℝ) : ℂ)‖) ^ 2 = 1 / 2 := by
    rw [Complex.norm_real, Real.norm_eq_abs, sq_abs, div_pow, Real.sq_sqrt (by norm_num)]; norm_num
  have f1 : (Finset.range 4).filter (fun i => bitsAt [1, 1] i = [1, 1]) = {2, 3} := by decide
  have f2 : (Finset.range 4).filter (fun i => bitsAt [1, 1] i = [0, 1]) = ∅ := by decide
  refine ⟨d, by simpa using h1, ?_, ?_⟩
  · rw [h3]
    have : outcomeProb [(1 / √2 : ℝ), 0, 0, (1 / √2 : ℝ)] [1, 1] [1, 1] = 1 / 2 := by
      rw [outcomeProb]
      show ∑ i ∈ (Finset.range 4).filter (fun i => bitsAt [1, 1] i = [1, 1]), _ = _
      rw [f1, Finset.sum_pair (by norm_num)]
      simpa using hs
    rw [this]; norm_num
  · rw [h3, if_pos]
    rw [outcomeProb]
    show ∑ i ∈ (Finset.range 4).filter (fun i => bitsAt [1, 1] i = [0, 1]), _ = _
    rw [f2]; simp

end

end Blueqat
