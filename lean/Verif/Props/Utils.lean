import Verif.Utils
import Verif.Props.Numpy

/-!
# C25, C58: global phase and bit strings
-/

set_option linter.unusedSimpArgs false
set_option linter.unusedVariables false

namespace Blueqat

open Spec

/-! ## C58 -/

/-- A string of characters 0 and 1. -/
def IsBits (s : String) : Prop := ∀ c ∈ s.toList, c = '0' ∨ c = '1'

/-- The numbers a 0/1 string spells. -/
def bitsOf (s : String) : List ℕ := s.toList.map (fun c => if c = '1' then 1 else 0)

theorem intsOfStr_bits (s : String) (h : IsBits s) : intsOfStr s = .ok (bitsOf s) := by
  have : ∀ l : List Char, (∀ c ∈ l, c = '0' ∨ c = '1') →
      l.mapM intOfChar = .ok (l.map (fun c => if c = '1' then 1 else 0)) := by
    intro l
    induction l with
    | nil => intro _; rfl
    | cons c l ih =>
      intro h
      rw [List.mapM_cons, ih (fun c hc => h c (by simp [hc]))]
      rcases h c (by simp) with rfl | rfl <;> rfl
  exact this s.toList h

theorem bitsOf_inj {s t : String} (hs : IsBits s) (ht : IsBits t) (h : bitsOf s = bitsOf t) : s = t := by
  apply String.toList_injective
  have : ∀ l m : List Char, (∀ c ∈ l, c = '0' ∨ c = '1') → (∀ c ∈ m, c = '0' ∨ c = '1') →
      l.map (fun c => if c = '1' then 1 else 0) = m.map (fun c => if c = '1' then 1 else 0) → l = m := by
    intro l
    induction l with
    | nil => intro m _ _ h; cases m with
      | nil => rfl
      | cons c m => simp at h
    | cons c l ih =>
      intro m hl hm h
      cases m with
      | nil => simp at h
      | cons d m =>
        simp only [List.map_cons, List.cons.injEq] at h
        have h1 := ih m (fun c hc => hl c (by simp [hc])) (fun c hc => hm c (by simp [hc])) h.2
        rcases hl c (by simp) with rfl | rfl <;> rcases hm d (by simp) with rfl | rfl <;> simp_all
  exact this _ _ hs ht h

theorem PyDict.set_fresh {α β : Type} [DecidableEq α] (d : PyDict α β) (k : α) (v : β) (h : k ∉ d.map Prod.fst) :
    d.set k v = d ++ [(k, v)] := by
  induction d with
  | nil => rfl
  | cons p d ih =>
    obtain ⟨a, b⟩ := p
    simp only [List.map_cons, List.mem_cons, not_or] at h
    simp only [PyDict.set, if_neg (Ne.symm h.1), ih h.2, List.cons_append]

theorem PyDict.foldl_set {α β γ : Type} [DecidableEq γ] (f : α → γ) (d : PyDict α β) : ∀ acc : PyDict γ β,
    (acc.map Prod.fst ++ d.map (fun p => f p.1)).Nodup →
    d.foldl (fun a p => a.set (f p.1) p.2) acc = acc ++ d.map (fun p => (f p.1, p.2)) := by
  induction d with
  | nil => intro acc _; simp
  | cons p d ih =>
    intro acc h
    have hf : f p.1 ∉ acc.map Prod.fst := by
      intro hm
      rw [List.nodup_append] at h
      exact h.2.2 _ hm (f p.1) (by simp) rfl
    simp only [List.foldl_cons, List.map_cons]
    rw [PyDict.set_fresh _ _ _ hf, ih]
    · simp
    · simpa using h

theorem convertKeys_bits {V : Type} (d : PyDict String V) : ∀ acc : PyDict (List ℕ) V, (∀ p ∈ d, IsBits p.1) →
    convertKeys d acc = .ok (d.foldl (fun a p => a.set (bitsOf p.1) p.2) acc) := by
  induction d with
  | nil => intro acc _; rfl
  | cons p d ih =>
    obtain ⟨k, v⟩ := p
    intro acc h
    simp only [convertKeys, intsOfStr_bits k (h (k, v) (by simp)), List.foldl_cons]
    exact ih _ (fun p hp => h p (by simp [hp]))

/-- C58: `to_inttuple` of a 0/1 string is the tuple of its digits; of a Counter or dict with 0/1 string keys it is
the Counter or dict with every key replaced by its tuple, all entries kept in order and all keys still distinct;
of anything else, or of a string with a character that is no digit, it is a ValueError. -/
theorem C58_to_inttuple (V : Type) :
    (∀ s, IsBits s → toInttuple (V := V) (.str s) = .ok (.tuple (bitsOf s))) ∧
    (∀ d : PyDict String V, d.WF → (∀ p ∈ d, IsBits p.1) →
      toInttuple (.counter d) = .ok (.counter (d.map fun p => (bitsOf p.1, p.2))) ∧
      toInttuple (.dict d) = .ok (.dict (d.map fun p => (bitsOf p.1, p.2))) ∧
      PyDict.WF (d.map fun p => (bitsOf p.1, p.2))) ∧
    toInttuple (V := V) .other = .error .valueError ∧
    (∀ s, (∃ c ∈ s.toList, c.isDigit = false) → toInttuple (V := V) (.str s) = .error .valueError) := by
  refine ⟨fun s hs => by simp [toInttuple, intsOfStr_bits s hs, Except.map], fun d hd hb => ?_, rfl, ?_⟩
  · have hnd : (d.map (fun p => bitsOf p.1)).Nodup := by
      rw [show (fun p : String × V => bitsOf p.1) = bitsOf ∘ Prod.fst from rfl, ← List.map_map]
      refine List.Nodup.map_on ?_ hd
      intro x hx y hy hxy
      obtain ⟨p, hp, rfl⟩ := List.mem_map.1 hx
      obtain ⟨q, hq, rfl⟩ := List.mem_map.1 hy
      exact bitsOf_inj (hb p hp) (hb q hq) hxy
    have hc : convertKeys d [] = .ok (d.map fun p => (bitsOf p.1, p.2)) := by
      rw [convertKeys_bits d [] hb, PyDict.foldl_set bitsOf d [] (by simpa using hnd)]
      simp
    refine ⟨by simp [toInttuple, hc, Except.map], by simp [toInttuple, hc, Except.map], ?_⟩
    simp only [PyDict.WF, List.map_map]; exact hnd
  · rintro s ⟨c, hc, hd⟩
    have : ∀ l : List Char, c ∈ l → l.mapM intOfChar = .error .valueError := by
      intro l
      induction l with
      | nil => intro h; simp at h
      | cons a l ih =>
        intro h
        rw [List.mapM_cons]
        by_cases ha : a.isDigit = true
        · rcases List.mem_cons.1 h with rfl | h
          · rw [ha] at hd; cases hd
          · rw [ih h]; simp [intOfChar, ha]; rfl
        · simp [intOfChar, ha]; rfl
    simp [toInttuple, intsOfStr, this s.toList hc, Except.map]

example : toInttuple (V := ℕ) (.counter [("01", 3), ("11", 2)]) = .ok (.counter [([0, 1], 3), ([1, 1], 2)]) := rfl

/-- C58: the key reversal of the ibmq runner keeps every entry, in order, under the reversed key; the keys stay
distinct, so no count is lost. -/
theorem C58_reverse_keys {V : Type} (d : PyDict String V) (hd : d.WF) :
    reverseKeys d = d.map (fun p => (String.ofList p.1.toList.reverse, p.2)) ∧ PyDict.WF (reverseKeys d) := by
  have hnd : (d.map (fun p => String.ofList p.1.toList.reverse)).Nodup := by
    rw [show (fun p : String × V => String.ofList p.1.toList.reverse) =
      (fun s : String => String.ofList s.toList.reverse) ∘ Prod.fst from rfl, ← List.map_map]
    refine List.Nodup.map ?_ hd
    intro x y hxy
    simp only at hxy
    have := congrArg String.toList hxy
    rw [String.toList_ofList, String.toList_ofList] at this
    exact String.toList_injective (List.reverse_injective this)
  have h : reverseKeys d = d.map (fun p => (String.ofList p.1.toList.reverse, p.2)) := by
    have := PyDict.foldl_set (fun s : String => String.ofList s.toList.reverse) d [] (by simpa using hnd)
    simpa [reverseKeys] using this
  refine ⟨h, ?_⟩
  rw [h]
  simp only [PyDict.WF, List.map_map]; exact hnd

example : reverseKeys [("011", 5), ("110", 7)] = [("110", 5), ("011", 7)] := by decide

/-! ## C25 -/

/-- Amplitudes that `ignore_global_phase` treats as non-zero. -/
def Noticeable (z : ℂ) : Prop := ‖z‖ > 0.0000001

theorem find_phase (v : Arr) (u : ℂ) (hu : ‖u‖ = 1) :
    (v.map (fun z => u * z)).find? (fun q => decide (‖q‖ > 0.0000001)) =
      (v.find? (fun q => decide (‖q‖ > 0.0000001))).map (fun z => u * z) := by
  induction v with
  | nil => rfl
  | cons z v ih =>
    simp only [List.map_cons, List.find?_cons, norm_mul, hu, one_mul]
    cases decide (‖z‖ > 0.0000001)
    · simp only; rw [← ih]
    · rfl

theorem find_noticeable {v : Arr} (h : ∃ z ∈ v, Noticeable z) :
    ∃ q, v.find? (fun q => decide (‖q‖ > 0.0000001)) = some q ∧ ‖q‖ ≠ 0 := by
  obtain ⟨z, hz, hn⟩ := h
  cases hf : v.find? (fun q => decide (‖q‖ > 0.0000001)) with
  | none =>
    rw [List.find?_eq_none] at hf
    exact absurd hn (by have := hf z hz; simpa [Noticeable] using this)
  | some q =>
    refine ⟨q, rfl, fun h0 => ?_⟩
    have := List.find?_some hf
    simp only [decide_eq_true_eq, h0] at this
    norm_num at this

/-- C25: `ignore_global_phase` of a vector with a noticeable amplitude. Vectors that differ by a global phase
become equal; all norms are kept; the result is the vector times one phase; its first noticeable amplitude is a
positive real; applying it again changes nothing. -/
theorem C25_canonical (v : Arr) (hv : ∃ z ∈ v, Noticeable z) :
    (∀ u : ℂ, ‖u‖ = 1 → ignoreGlobalPhase (v.map (fun z => u * z)) = ignoreGlobalPhase v) ∧
    (∃ u : ℂ, ‖u‖ = 1 ∧ ignoreGlobalPhase v = v.map (fun z => u * z)) ∧
    (ignoreGlobalPhase v).map (fun z => ‖z‖) = v.map (fun z => ‖z‖) ∧
    (∃ pre q post, ignoreGlobalPhase v = pre ++ q :: post ∧ (∀ z ∈ pre, ¬ Noticeable z) ∧ Noticeable q ∧
      q.im = 0 ∧ 0 < q.re) ∧
    ignoreGlobalPhase (ignoreGlobalPhase v) = ignoreGlobalPhase v := by
  obtain ⟨q, hq, h0⟩ := find_noticeable hv
  have hqz : q ≠ 0 := fun h => h0 (by simp [h])
  have hI : ignoreGlobalPhase v = v.map (fun z => ((‖q‖ : ℂ) / q) * z) := by
    simp only [ignoreGlobalPhase, hq]
    apply List.map_congr_left; intro z _; ring
  have hu : ‖(‖q‖ : ℂ) / q‖ = 1 := by
    rw [norm_div, Complex.norm_real, norm_norm, div_self h0]
  have hphase : ∀ u : ℂ, ‖u‖ = 1 → ignoreGlobalPhase (v.map (fun z => u * z)) = ignoreGlobalPhase v := by
    intro u hu
    have hu0 : u ≠ 0 := fun h => by rw [h] at hu; simp at hu
    simp only [ignoreGlobalPhase, find_phase v u hu, hq, Option.map_some, List.map_map]
    apply List.map_congr_left
    intro z _
    simp only [Function.comp, norm_mul, hu, one_mul]
    field_simp
  refine ⟨hphase, ⟨_, hu, hI⟩, ?_, ?_, ?_⟩
  · rw [hI, List.map_map]
    apply List.map_congr_left
    intro z _
    simp only [Function.comp, norm_mul, hu, one_mul]
  · obtain ⟨hn, pre, post, rfl, hpre⟩ := List.find?_eq_some_iff_append.1 hq
    simp only [decide_eq_true_eq] at hn
    refine ⟨pre.map (fun z => ((‖q‖ : ℂ) / q) * z), (‖q‖ : ℂ), post.map (fun z => ((‖q‖ : ℂ) / q) * z), ?_, ?_, ?_, ?_, ?_⟩
    · rw [hI, List.map_append, List.map_cons, div_mul_cancel₀ _ hqz]
    · intro z hz
      obtain ⟨y, hy, rfl⟩ := List.mem_map.1 hz
      have := hpre y hy
      simp only [Bool.not_eq_true', decide_eq_false_iff_not] at this
      simp only [Noticeable, norm_mul, hu, one_mul]
      exact this
    · simpa [Noticeable] using hn
    · simp
    · simpa using norm_pos_iff.2 hqz
  · conv_lhs => rw [hI]
    exact hphase _ hu

/-- Every unit vector with fewer than 10^14 entries (46 qubits) has a noticeable amplitude. -/
theorem C25_unit_vectors (v : Arr) (h1 : (v.map (fun z => ‖z‖ ^ 2)).sum = 1) (hl : v.length < 10 ^ 14) :
    ∃ z ∈ v, Noticeable z := by
  by_contra hc
  push Not at hc
  have hb : ∀ (l : Arr), (∀ z ∈ l, ¬ Noticeable z) → (l.map (fun z => ‖z‖ ^ 2)).sum ≤ l.length * (1 / 10 ^ 14) := by
    intro l
    induction l with
    | nil => intro _; simp
    | cons z l ih =>
      intro h
      have hz := h z (by simp)
      simp only [Noticeable, not_lt, gt_iff_lt] at hz
      have hz2 : ‖z‖ ^ 2 ≤ 1 / 10 ^ 14 := by
        have h0 : (0:ℝ) ≤ ‖z‖ := norm_nonneg z
        calc ‖z‖ ^ 2 ≤ (0.0000001 : ℝ) ^ 2 := by gcongr
          _ = 1 / 10 ^ 14 := by norm_num
      have := ih (fun z hz => h z (by simp [hz]))
      simp only [List.map_cons, List.sum_cons, List.length_cons]
      push_cast
      linarith
  have h2 := hb v (fun z hz h => hc z hz h)
  rw [h1] at h2
  have h3 : (v.length : ℝ) < 10 ^ 14 := by exact_mod_cast hl
  have : (v.length : ℝ) * (1 / 10 ^ 14) < 1 := by
    rw [mul_one_div, div_lt_one (by positivity)]; exact h3
  linarith

/-- C25: the option `ignore_global` changes neither the cache nor the random numbers used nor anything in the
result but the phase of the returned vector. -/
theorem C25_cache_unaffected (n : ℕ) (gates : List Gate) (be : NpBackend) (shots : Option ℤ) (returns : Option String)
    (rnd : ℕ → ℝ) :
    (npRunArgs n gates be ⟨shots, returns, true, rnd⟩).1 = (npRunArgs n gates be ⟨shots, returns, false, rnd⟩).1 ∧
    (npRunArgs n gates be ⟨shots, returns, true, rnd⟩).2 =
      (npRunArgs n gates be ⟨shots, returns, false, rnd⟩).2.map (fun r => (match r.1 with
        | .statevector q => .statevector (ignoreGlobalPhase q)
        | .shots c => .shots c
        | .both q c => .both (ignoreGlobalPhase q) c
        | .inner q cr c => .inner (ignoreGlobalPhase q) cr c, r.2)) := by
  simp only [npRunArgs]
  cases hp : npParse shots returns with
  | error e => exact ⟨rfl, rfl⟩
  | ok x =>
    obtain ⟨k, r⟩ := x
    rcases hr : npRun n gates k.toNat be rnd with ⟨be', res⟩
    cases res with
    | error e => simp only [hr]; exact ⟨trivial, rfl⟩
    | ok y =>
      obtain ⟨ctx, c⟩ := y
      simp only [hr, if_true, Bool.false_eq_true, if_false, Except.map, npReturn]
      refine ⟨trivial, ?_⟩
      split_ifs <;> rfl

example : ∃ z ∈ ([0, Complex.I] : Arr), Noticeable z := ⟨Complex.I, by simp, by simp [Noticeable]; norm_num⟩

end Blueqat
