import Verif.Qgate
import Verif.Spec.Qgate
import Verif.Props.Utils
import Mathlib.Tactic.Linarith
import Mathlib.Data.List.Sort

/-!
# C59: placement of sampled bits in the qgate backend
-/

set_option linter.unusedSimpArgs false
set_option linter.unusedVariables false

namespace Blueqat

open Spec

noncomputable section

/-! ## Empty lanes -/

theorem int_testBit_pow_sub_one (e l : ℕ) : Int.testBit ((2 : ℤ) ^ e - 1) l = decide (l < e) := by
  have : ((2 : ℤ) ^ e - 1) = ((2 ^ e - 1 : ℕ) : ℤ) := by
    rw [Nat.cast_sub Nat.one_le_two_pow]; simp
  rw [this]
  show (2 ^ e - 1).testBit l = _
  exact Nat.testBit_two_pow_sub_one e l

theorem int_testBit_pow_mul (e l : ℕ) : Int.testBit ((2 : ℤ) ^ e * 2 - 1) l = decide (l < e + 1) := by
  rw [← pow_succ]; exact int_testBit_pow_sub_one (e + 1) l

theorem land_nat (a : ℕ) (m : ℤ) : ∃ r : ℕ, Int.land a m = r := by
  cases m with
  | ofNat m => exact ⟨a &&& m, rfl⟩
  | negSucc m => exact ⟨Nat.ldiff a m, rfl⟩

theorem shiftLanes_fold (v : ℕ) (l : List (ℤ × ℕ)) : ∀ acc : ℕ, ∃ r : ℕ,
    l.foldl (fun (acc : ℤ) (p : ℤ × ℕ) => Int.lor acc (Int.land ((v : ℤ) * 2 ^ p.2) p.1)) (acc : ℤ) = r ∧
    ∀ lane, r.testBit lane = true ↔ acc.testBit lane = true ∨ ∃ p ∈ l, (v * 2 ^ p.2).testBit lane = true ∧ Int.testBit p.1 lane = true := by
  induction l with
  | nil => intro acc; exact ⟨acc, rfl, by simp⟩
  | cons p l ih =>
    intro acc
    have hc : ((v : ℤ) * 2 ^ p.2) = ((v * 2 ^ p.2 : ℕ) : ℤ) := by push_cast; rfl
    obtain ⟨a, ha⟩ := land_nat (v * 2 ^ p.2) p.1
    have ha' : ∀ lane, a.testBit lane = ((v * 2 ^ p.2).testBit lane && Int.testBit p.1 lane) := by
      intro lane
      have := Int.testBit_land ((v * 2 ^ p.2 : ℕ) : ℤ) p.1 lane
      rw [ha] at this
      exact this
    obtain ⟨r, h1, h2⟩ := ih (acc ||| a)
    refine ⟨r, ?_, ?_⟩
    · rw [List.foldl_cons, hc, ha]; exact h1
    · intro lane
      rw [h2, Nat.testBit_or, Bool.or_eq_true, ha', Bool.and_eq_true]
      simp only [List.mem_cons, exists_eq_or_imp, or_assoc]

theorem count_below (es : List ℕ) (hs : es.Pairwise (· < ·)) (l s : ℕ) (hsl : s ≤ es.length) :
    ((s = 0 ∨ ∃ e, es[s - 1]? = some e ∧ e < l) ∧ (s = es.length ∨ ∃ e, es[s]? = some e ∧ l < e)) ↔
      l ∉ es ∧ s = (es.filter (fun e => e < l)).length := by
  induction es generalizing s with
  | nil => simp at hsl; simp [hsl]
  | cons x es ih =>
    rw [List.pairwise_cons] at hs
    cases s with
    | zero =>
      simp only [true_or, true_and, List.length_cons, List.getElem?_cons_zero, Option.some.injEq, exists_eq_left']
      constructor
      · rintro (h | h)
        · simp at h
        · refine ⟨?_, ?_⟩
          · simp only [List.mem_cons, not_or]
            exact ⟨by omega, fun hm => by have := hs.1 l hm; omega⟩
          · symm; simp only [List.length_eq_zero_iff, List.filter_eq_nil_iff, List.mem_cons, decide_eq_true_eq]
            rintro y (rfl | hy)
            · omega
            · have := hs.1 y hy; omega
      · rintro ⟨h1, h2⟩
        right
        by_contra hc
        have : x < l := by simp at h1; omega
        simp [List.filter_cons, this] at h2
    | succ s =>
      have hs' : s ≤ es.length := by simpa using hsl
      have := ih hs.2 s hs'
      simp only [List.length_cons, Nat.add_right_cancel_iff, Nat.add_one_sub_one, List.getElem?_cons_succ,
        Nat.succ_ne_zero, false_or, Nat.add_eq_zero_iff, one_ne_zero, and_false]
      constructor
      · rintro ⟨⟨e, he, hel⟩, h2⟩
        have hx : x < l := by
          cases s with
          | zero => simp at he; omega
          | succ s =>
            simp only [List.getElem?_cons_succ] at he
            have := hs.1 e (List.mem_of_getElem? he); omega
        have h3 := this.1 ⟨?_, h2⟩
        · refine ⟨by simp only [List.mem_cons, not_or]; exact ⟨by omega, h3.1⟩, ?_⟩
          simp only [List.filter_cons, hx, decide_true, if_true, List.length_cons]; omega
        · cases s with
          | zero => simp
          | succ s => right; exact ⟨e, by simpa using he, hel⟩
      · rintro ⟨h1, h2⟩
        have hx : x < l := by
          by_contra hc
          have : es.filter (fun e => e < l) = [] := by
            simp only [List.filter_eq_nil_iff, decide_eq_true_eq]
            intro y hy; have := hs.1 y hy; omega
          simp [List.filter_cons, hc, this] at h2
        simp only [List.filter_cons, hx, decide_true, if_true, List.length_cons, Nat.add_right_cancel_iff] at h2
        simp only [List.mem_cons, not_or] at h1
        obtain ⟨h3, h4⟩ := this.2 ⟨h1.2, h2⟩
        refine ⟨?_, h4⟩
        cases s with
        | zero => exact ⟨x, by simp, hx⟩
        | succ s =>
          rcases h3 with h3 | ⟨e, he, hel⟩
          · omega
          · exact ⟨e, by simpa using he, hel⟩

/-- Bit `l` of mask number `s`: lane `l` lies between the empty lanes number `s - 1` and `s`. -/
theorem laneMasks_bit (es : List ℕ) (h0 : es ≠ []) : ∃ ms, laneMasks es = .ok ms ∧ ms.length = es.length + 1 ∧
    ∀ (s : ℕ) (m : ℤ) (l : ℕ), ms[s]? = some m → (Int.testBit m l = true ↔
      (s = 0 ∨ ∃ e, es[s - 1]? = some e ∧ e < l) ∧ (s = es.length ∨ ∃ e, es[s]? = some e ∧ l < e)) := by
  obtain ⟨x, es, rfl⟩ := List.exists_cons_of_ne_nil h0
  obtain ⟨y, hy⟩ : ∃ y, (x :: es).getLast? = some y := by
    cases h : (x :: es).getLast? with
    | none => simp at h
    | some y => exact ⟨y, rfl⟩
  have hyl : (x :: es)[es.length]? = some y := by rw [List.getLast?_eq_getElem?] at hy; simpa using hy
  refine ⟨_, by
    simp only [laneMasks, List.map_cons, List.head?_cons]
    rw [← List.map_cons (f := fun lane : ℕ => (2 : ℤ) ^ lane), List.getLast?_map, hy]
    rfl, by simp, ?_⟩
  intro s m l hm
  have hget : ∀ i e, (x :: es)[i]? = some e → (List.map (fun lane : ℕ => (2 : ℤ) ^ lane) (x :: es)).getD i 0 = 2 ^ e := by
    intro i e h
    rw [List.getD_eq_getElem?_getD, List.getElem?_map, h]; rfl
  cases s with
  | zero =>
    simp only [List.cons_append, List.nil_append, List.append_assoc, List.getElem?_cons_zero, Option.some.injEq] at hm
    subst hm
    rw [int_testBit_pow_sub_one]
    simp
  | succ s =>
    simp only [List.cons_append, List.nil_append, List.getElem?_cons_succ, List.length_map, List.length_cons,
      Nat.add_one_sub_one] at hm
    rcases lt_trichotomy s es.length with hlt | heq | hgt
    · rw [List.getElem?_append_left (by simpa using hlt), List.getElem?_map, List.getElem?_range hlt] at hm
      simp only [Option.map_some, Option.some.injEq] at hm
      have h1 : (x :: es)[s]? = some ((x :: es)[s]'(by simp; omega)) := List.getElem?_eq_getElem _
      have h2 : (x :: es)[s + 1]? = some ((x :: es)[s + 1]'(by simp; omega)) := List.getElem?_eq_getElem _
      rw [hget _ _ h1, hget _ _ h2] at hm
      rw [← hm, Int.testBit_land, Int.testBit_lnot, int_testBit_pow_sub_one, int_testBit_pow_mul, Nat.add_one_sub_one, h1, h2]
      have hne : s + 1 ≠ (x :: es).length := by simp; omega
      simp only [Bool.and_eq_true, decide_eq_true_eq, Bool.not_eq_true', decide_eq_false_iff_not, Nat.succ_ne_zero, false_or,
        Option.some.injEq, exists_eq_left', hne, Nat.add_eq_zero_iff, one_ne_zero, and_false]
      omega
    · subst heq
      rw [List.getElem?_append_right (by simp)] at hm
      simp only [List.length_map, List.length_range, Nat.sub_self, List.getElem?_cons_zero, Option.some.injEq] at hm
      subst hm
      rw [Int.testBit_lnot, int_testBit_pow_mul, Nat.add_one_sub_one, hyl]
      simp
    · rw [List.getElem?_eq_none (by simp; omega)] at hm
      simp at hm

theorem nonempty_below (es : List ℕ) (hs : es.Pairwise (· < ·)) (l : ℕ) :
    ((List.range l).filter (fun x => x ∉ es)).length + (es.filter (fun e => e < l)).length = l := by
  have h1 : (es.filter (fun e => e < l)).length = ((List.range l).filter (fun x => x ∈ es)).length := by
    refine List.Perm.length_eq ((List.perm_ext_iff_of_nodup ?_ ?_).2 ?_)
    · exact (hs.imp (fun h => Nat.ne_of_lt h)).filter _
    · exact List.nodup_range.filter _
    · intro a; simp [and_comm]
  rw [h1, add_comm]
  have := List.length_eq_length_filter_add (l := List.range l) (fun x => decide (x ∈ es))
  simp only [List.length_range] at this
  conv_rhs => rw [this]
  congr 2
  congr 1
  funext x; simp

/-- C59. `shift_for_empty_lanes` re-inserts zero bits at exactly the empty lanes, for every ascending list of lanes and
every list of observed values. -/
theorem C59_lanes (es : List ℕ) (h0 : es ≠ []) (hs : es.Pairwise (· < ·)) (obs : List ℕ) :
    ∃ res : List ℕ, shiftForEmptyLanes es (obs.map (fun v : ℕ => (v : ℤ))) = .ok (res.map (fun v : ℕ => (v : ℤ))) ∧
      List.Forall₂ (Spread es) obs res := by
  obtain ⟨ms, h1, h2, h3⟩ := laneMasks_bit es h0
  have hone : ∀ v : ℕ, ∃ r : ℕ, shiftLanes ms v = r ∧ Spread es v r := by
    intro v
    obtain ⟨r, hr1, hr2⟩ := shiftLanes_fold v ms.zipIdx 0
    refine ⟨r, hr1, fun lane => ?_⟩
    have hcount := nonempty_below es hs lane
    have key : r.testBit lane = true ↔ lane ∉ es ∧ v.testBit (lane - (es.filter (fun e => e < lane)).length) = true := by
      rw [hr2]
      simp only [Nat.zero_testBit, Bool.false_eq_true, false_or]
      constructor
      · rintro ⟨⟨m, s⟩, hp, hb, hm⟩
        have hget : ms[s]? = some m := by simpa using List.mem_zipIdx_iff_getElem?.1 hp
        have hsl : s ≤ es.length := by
          have := (List.getElem?_eq_some_iff.1 hget).1; omega
        obtain ⟨c1, c2⟩ := (count_below es hs lane s hsl).1 ((h3 s m lane hget).1 hm)
        refine ⟨c1, ?_⟩
        rw [← c2]
        rw [mul_comm, Nat.testBit_two_pow_mul] at hb
        simpa using (Bool.and_eq_true _ _ ▸ hb).2
      · rintro ⟨c1, c2⟩
        set s := (es.filter (fun e => e < lane)).length with hsdef
        have hsl : s ≤ es.length := List.length_filter_le _ _
        have hlt : s < ms.length := by omega
        refine ⟨(ms[s], s), List.mem_zipIdx_iff_getElem?.2 (by simp), ?_, ?_⟩
        · rw [mul_comm, Nat.testBit_two_pow_mul]
          simp [c2]; omega
        · exact (h3 s _ lane (List.getElem?_eq_getElem hlt)).2 ((count_below es hs lane s hsl).2 ⟨c1, rfl⟩)
    have hn : lane - (es.filter (fun e => e < lane)).length = ((List.range lane).filter (fun l => l ∉ es)).length := by omega
    rw [hn] at key
    by_cases hl : lane ∈ es
    · simp only [hl, if_true]
      by_contra hc
      exact (key.1 (by simpa using hc)).1 hl
    · simp only [hl, if_false]
      rw [Bool.eq_iff_iff, key]
      simp [hl]
  choose f hf1 hf2 using hone
  refine ⟨obs.map f, ?_, ?_⟩
  · simp only [shiftForEmptyLanes, h1, bind, Except.bind, List.map_map]
    congr 1
    exact List.map_congr_left (fun v _ => hf1 v)
  · rw [List.forall₂_map_right_iff]
    exact List.forall₂_same.2 (fun v _ => hf2 v)

/-- Lanes 1 and 3 are empty: bits 0, 1, 2 of 7 go to lanes 0, 2, 4. -/
example : shiftForEmptyLanes [1, 3] [7, 5] = .ok [21, 17] := by decide +kernel

/-! ## Key strings -/

/-- The digits of `format(x, '0nb')` before and after padding, least significant first in `Nat.digits`. -/
theorem digits_pad (n : ℕ) : ∀ x, x < 2 ^ n →
    List.replicate (n - (Nat.digits 2 x).length) '0' ++ ((Nat.digits 2 x).map (fun d => if d = 1 then '1' else '0')).reverse =
      (List.range n).map (fun k => if x.testBit (n - 1 - k) then '1' else '0') ∧ (Nat.digits 2 x).length ≤ n := by
  induction n with
  | zero => intro x hx; have : x = 0 := by simpa using hx
            subst this; simp
  | succ n ih =>
    intro x hx
    by_cases h0 : x = 0
    · subst h0
      refine ⟨?_, by simp⟩
      simp [List.map_const']
    · have hd : Nat.digits 2 x = x % 2 :: Nat.digits 2 (x / 2) := Nat.digits_def' (by norm_num) (Nat.pos_of_ne_zero h0)
      obtain ⟨ih1, ih2⟩ := ih (x / 2) (by rw [Nat.div_lt_iff_lt_mul (by norm_num)]; rw [pow_succ] at hx; exact hx)
      rw [hd]
      refine ⟨?_, by simpa using ih2⟩
      simp only [List.length_cons, List.map_cons, List.reverse_cons, Nat.add_sub_add_right]
      rw [← List.append_assoc, ih1, List.range_succ, List.map_append]
      congr 1
      · refine List.map_congr_left (fun k hk => ?_)
        have hk : k < n := List.mem_range.1 hk
        have e : n + 1 - 1 - k = (n - 1 - k) + 1 := by omega
        rw [e, Nat.testBit_succ]
      · simp [Nat.testBit_zero]

theorem formatBin_chars (n x : ℕ) (h0 : 0 < n) (hx : x < 2 ^ n) :
    (formatBin n x).toList = (List.range n).map (fun k => if x.testBit (n - 1 - k) then '1' else '0') := by
  rw [← (digits_pad n x hx).1]
  by_cases h : x = 0
  · subst h
    have : n = (n - 1) + 1 := by omega
    simp only [formatBin, if_true, String.toList_ofList, List.length_singleton, Nat.digits_zero, List.length_nil, Nat.sub_zero,
      List.map_nil, List.reverse_nil, List.append_nil]
    conv_rhs => rw [this, List.replicate_succ']
  · simp only [formatBin, h, if_false, String.toList_ofList, List.length_reverse, List.length_map]

theorem qgPermute_bit (m v : ℕ) (ps : List ℕ) : ∀ idx acc j, (qgPermute m v idx ps acc).testBit j = true ↔
    acc.testBit j = true ∨ ∃ i p, ps[i]? = some p ∧ v.testBit (idx + i) = true ∧ m - p = j := by
  induction ps with
  | nil => intro idx acc j; simp [qgPermute]
  | cons p ps ih =>
    intro idx acc j
    rw [qgPermute, ih]
    have hb : (v &&& 1 <<< idx ≠ 0) ↔ v.testBit idx = true := by
      rw [Nat.one_shiftLeft, Nat.and_two_pow]
      cases v.testBit idx <;> simp
    have hsplit : (∃ i q, (p :: ps)[i]? = some q ∧ v.testBit (idx + i) = true ∧ m - q = j) ↔
        (v.testBit idx = true ∧ m - p = j) ∨ ∃ i q, ps[i]? = some q ∧ v.testBit (idx + 1 + i) = true ∧ m - q = j := by
      constructor
      · rintro ⟨i, q, h1, h2, h3⟩
        cases i with
        | zero => left; simp at h1; subst h1; exact ⟨h2, h3⟩
        | succ i => right; exact ⟨i, q, by simpa using h1, by rwa [add_assoc, add_comm 1 i], h3⟩
      · rintro (⟨h1, h2⟩ | ⟨i, q, h1, h2, h3⟩)
        · exact ⟨0, p, by simp, h1, h2⟩
        · exact ⟨i + 1, q, by simpa using h1, by rwa [add_assoc, add_comm 1 i] at h2, h3⟩
    rw [hsplit, ← or_assoc]
    refine or_congr_left ?_
    split_ifs with h
    · rw [Nat.testBit_or, Bool.or_eq_true, Nat.one_shiftLeft, Nat.testBit_two_pow]
      simp [hb.1 h]
    · have : ¬ v.testBit idx = true := fun h' => h (hb.2 h')
      simp [this]

theorem qgPermute_lt (n v : ℕ) (ps : List ℕ) (h0 : 0 < n) : qgPermute (n - 1) v 0 ps 0 < 2 ^ n := by
  refine Nat.lt_pow_two_of_testBit _ (fun j hj => ?_)
  by_contra hc
  have hc : (qgPermute (n - 1) v 0 ps 0).testBit j = true := by simpa using hc
  rcases (qgPermute_bit _ _ _ _ _ _).1 hc with h | ⟨i, p, -, -, h⟩
  · simp at h
  · omega

/-- C59. The key of a sampled value has one character for every qubit, qubit 0 first: the character of a sampled qubit is
its bit of the value, that of any other qubit is 0. -/
theorem C59_key (n : ℕ) (h0 : 0 < n) (pos : List ℕ) (hp : ∀ p ∈ pos, p < n) (v : ℕ) :
    IsBitString n (formatBin n (qgPermute (n - 1) v 0 pos 0)) (fun k => ∃ i, pos[i]? = some k ∧ v.testBit i = true) := by
  rw [IsBitString, formatBin_chars n _ h0 (qgPermute_lt n v pos h0)]
  refine ⟨by simp, fun k hk => ?_⟩
  have hbit : (qgPermute (n - 1) v 0 pos 0).testBit (n - 1 - k) = true ↔ ∃ i, pos[i]? = some k ∧ v.testBit i = true := by
    rw [qgPermute_bit]
    simp only [Nat.zero_testBit, Bool.false_eq_true, false_or, Nat.zero_add]
    constructor
    · rintro ⟨i, p, h1, h2, h3⟩
      have := hp p (List.mem_of_getElem? h1)
      have : p = k := by omega
      subst this
      exact ⟨i, h1, h2⟩
    · rintro ⟨i, h1, h2⟩
      exact ⟨i, k, h1, h2, rfl⟩
  rw [List.getElem?_map, List.getElem?_range hk]
  by_cases h : (qgPermute (n - 1) v 0 pos 0).testBit (n - 1 - k) = true
  · left; exact ⟨by simp [h], hbit.1 h⟩
  · right; exact ⟨by simp [h], fun h' => h (hbit.2 h')⟩

/-- Qubits 0 and 2 of three are sampled, with value 2: qubit 0 is 0, qubit 2 is 1. -/
example : formatBin 3 (qgPermute 2 2 0 [0, 2] 0) = "001" := by decide +kernel

/-! ## The sampled qubits -/

/-- C59. The sampled qubits are the measured ones, each once, in ascending order; what runs is everything else. -/
theorem C59_sampled (ops : List QOp) :
    (qgSampled ops).Pairwise (· < ·) ∧ (∀ q, q ∈ qgSampled ops ↔ ∃ r, QOp.measure r q ∈ ops) ∧
    (∀ op, op ∈ qgNoMeasure ops ↔ op ∈ ops ∧ ∀ r q, op ≠ .measure r q) ∧ (qgNoMeasure ops).Sublist ops := by
  have hperm := List.perm_insertionSort (· ≤ ·) (ops.filterMap QOp.measured).dedup
  refine ⟨?_, ?_, ?_, List.filter_sublist⟩
  · have h1 : (qgSampled ops).Pairwise (· ≤ ·) := List.pairwise_insertionSort (· ≤ ·) _
    have h2 : (qgSampled ops).Nodup := hperm.nodup_iff.2 (List.nodup_dedup _)
    exact (h1.and h2).imp (fun h => lt_of_le_of_ne h.1 h.2)
  · intro q
    rw [qgSampled, hperm.mem_iff, List.mem_dedup, List.mem_filterMap]
    constructor
    · rintro ⟨op, h1, h2⟩
      cases op <;> simp [QOp.measured] at h2
      subst h2; exact ⟨_, h1⟩
    · rintro ⟨r, h⟩; exact ⟨_, h, rfl⟩
  · intro op
    rw [qgNoMeasure, List.mem_filter]
    refine and_congr_right (fun _ => ?_)
    cases op <;> simp [QOp.measured]

theorem mapM_regs_lt {n : ℕ} (l : List ℤ) (rs : List ℕ) (h : l.mapM (qregAt n) = .ok rs) : ∀ r ∈ rs, r < n := by
  induction l generalizing rs with
  | nil => simp [pure, Except.pure] at h; subst h; simp
  | cons i l ih =>
    rw [List.mapM_cons] at h
    simp only [bind, Except.bind, pure, Except.pure] at h
    cases hi : qregAt n i with
    | error e => rw [hi] at h; simp at h
    | ok r =>
      rw [hi] at h; simp only at h
      cases hl : l.mapM (qregAt n) with
      | error e => rw [hl] at h; simp at h
      | ok rs' =>
        rw [hl] at h; simp only [Except.ok.injEq] at h
        subst h
        have hr : r < n := by
          simp only [qregAt] at hi
          split_ifs at hi <;> simp only [Except.ok.injEq] at hi <;> omega
        intro q hq
        rcases List.mem_cons.1 hq with rfl | hq
        · exact hr
        · exact ih rs' hl q hq

theorem qgCollect_ok {n : ℕ} {g : Gen ℤ} {f : ℕ → QOp} {ops : List QOp} (h : qgCollect n g f = .ok ops) :
    ∃ rs : List ℕ, g.vals.mapM (qregAt n) = .ok rs ∧ g.err = none ∧ ops = rs.map f := by
  simp only [qgCollect, bind, Except.bind] at h
  cases hr : g.vals.mapM (qregAt n) with
  | error e => rw [hr] at h; simp at h
  | ok rs =>
    rw [hr] at h; simp only at h
    cases he : g.err with
    | some e => rw [he] at h; simp at h
    | none => rw [he] at h; simp only [Except.ok.injEq] at h; exact ⟨rs, rfl, rfl, h.symm⟩

theorem qgPairs_no_measure {n : ℕ} {ty : QType} {params : List ℝ} (ps : List (ℤ × ℤ)) :
    ∀ ops, qgPairs n ty params ps = .ok ops → ∀ r q, QOp.measure r q ∉ ops := by
  induction ps with
  | nil => intro ops h; simp [qgPairs] at h; subst h; simp
  | cons p ps ih =>
    intro ops h r q
    obtain ⟨c, t⟩ := p
    simp only [qgPairs, bind, Except.bind] at h
    cases h1 : qregAt n c with
    | error e => rw [h1] at h; simp at h
    | ok a =>
      cases h2 : qregAt n t with
      | error e => rw [h1, h2] at h; simp at h
      | ok b =>
        cases h3 : qgPairs n ty params ps with
        | error e => rw [h1, h2, h3] at h; simp at h
        | ok rest =>
          rw [h1, h2, h3] at h; simp only [Except.ok.injEq] at h
          subst h
          simp [ih rest h3]

/-- The measured registers exist. -/
theorem qgConvert_measured {n : ℕ} (g : Gate) (ops : List QOp) (h : qgConvert n g = .ok ops) :
    ∀ r q, QOp.measure r q ∈ ops → q < n := by
  intro r q hq
  cases g with
  | g1 k T =>
    obtain ⟨rs, -, -, rfl⟩ := qgCollect_ok (by simpa only [qgConvert] using h)
    simp at hq
  | measure T =>
    obtain ⟨rs, h1, -, rfl⟩ := qgCollect_ok (by simpa only [qgConvert] using h)
    obtain ⟨a, ha, he⟩ := List.mem_map.1 hq
    injection he with e1 e2
    subst e2
    exact mapM_regs_lt _ _ h1 _ ha
  | reset T => simp [qgConvert] at h
  | g3 k T =>
    exfalso
    cases k with
    | ccz => simp [qgConvert] at h
    | cswap => simp [qgConvert] at h
    | ccx =>
      simp only [qgConvert] at h
      split at h
      · simp at h
      · rename_i a b c
        cases h1 : qregItem n a <;> cases h2 : qregItem n b <;> cases h3 : qregItem n c <;>
          simp [h1, h2, h3, bind, Except.bind] at h
        subst h; simp at hq
      · simp at h
  | g2 k T =>
    exfalso
    by_cases hk : k = .swap
    · subst hk
      simp only [qgConvert] at h
      split at h
      · simp at h
      · rename_i a b
        cases h1 : qregItem n a <;> cases h2 : qregItem n b <;>
          simp [h1, h2, bind, Except.bind] at h
        subst h; simp at hq
      · simp at h
    · have h' : qgControlled n k T = .ok ops := by
        cases k <;> first | exact absurd rfl hk | exact h
      simp only [qgControlled] at h'
      cases hty : qgType2 k with
      | none => rw [hty] at h'; simp at h'
      | some tp =>
        rw [hty] at h'
        simp only at h'
        cases hp : qubitPairs T n with
        | error e => rw [hp] at h'; simp at h'
        | ok ps => rw [hp] at h'; exact qgPairs_no_measure ps ops h' r q hq

theorem qgConvertAll_measured {n : ℕ} (gs : List Gate) : ∀ ops, qgConvertAll n gs = .ok ops →
    ∀ r q, QOp.measure r q ∈ ops → q < n := by
  induction gs with
  | nil => intro ops h; simp [qgConvertAll] at h; subst h; simp
  | cons g gs ih =>
    intro ops h r q hq
    simp only [qgConvertAll, bind, Except.bind] at h
    cases h1 : qgConvert n g with
    | error e => rw [h1] at h; simp at h
    | ok a =>
      cases h2 : qgConvertAll n gs with
      | error e => rw [h1, h2] at h; simp at h
      | ok b =>
        rw [h1, h2] at h; simp only [Except.ok.injEq] at h
        subst h
        rcases List.mem_append.1 hq with hq | hq
        · exact qgConvert_measured g a h1 r q hq
        · exact ih b h2 r q hq

theorem isBitString_unique {n : ℕ} {s t : String} {f : ℕ → Prop} (h1 : IsBitString n s f) (h2 : IsBitString n t f) : s = t := by
  rw [← String.toList_inj]
  refine List.ext_getElem? (fun k => ?_)
  by_cases hk : k < n
  · rcases h1.2 k hk with ⟨a, b⟩ | ⟨a, b⟩ <;> rcases h2.2 k hk with ⟨c, d⟩ | ⟨c, d⟩
    · rw [a, c]
    · exact absurd b d
    · exact absurd d b
    · rw [a, c]
  · have e1 := h1.1
    have e2 := h2.1
    rw [List.getElem?_eq_none (by omega), List.getElem?_eq_none (by omega)]

theorem isBitString_iff {n : ℕ} {s : String} {f g : ℕ → Prop} (h1 : IsBitString n s f) (h2 : IsBitString n s g) :
    ∀ k < n, f k ↔ g k := by
  intro k hk
  rcases h1.2 k hk with ⟨a, b⟩ | ⟨a, b⟩ <;> rcases h2.2 k hk with ⟨c, d⟩ | ⟨c, d⟩
  · exact ⟨fun _ => d, fun _ => b⟩
  · rw [a] at c; simp at c
  · rw [a] at c; simp at c
  · exact ⟨fun h => absurd h b, fun h => absurd h d⟩

theorem qgStrKeys_eq (n : ℕ) (pos : List ℕ) (hist : PyDict ℕ ℕ)
    (hinj : ((hist.map Prod.fst).map (fun v => formatBin n (qgPermute (n - 1) v 0 pos 0))).Nodup) :
    qgStrKeys n pos hist = hist.map (fun p => (formatBin n (qgPermute (n - 1) p.1 0 pos 0), p.2)) := by
  have : ∀ (l : PyDict ℕ ℕ) (d : PyDict String ℕ),
      (d.map Prod.fst ++ (l.map Prod.fst).map (fun v => formatBin n (qgPermute (n - 1) v 0 pos 0))).Nodup →
      l.foldl (fun (d : PyDict String ℕ) (p : ℕ × ℕ) => d.set (formatBin n (qgPermute (n - 1) p.1 0 pos 0)) p.2) d =
        d ++ l.map (fun p => (formatBin n (qgPermute (n - 1) p.1 0 pos 0), p.2)) := by
    intro l
    induction l with
    | nil => intro d _; simp
    | cons p l ih =>
      intro d hd
      simp only [List.map_cons] at hd
      have hnot : formatBin n (qgPermute (n - 1) p.1 0 pos 0) ∉ d.map Prod.fst := by
        intro hm
        rw [List.nodup_append] at hd
        exact hd.2.2 _ hm _ (by simp) rfl
      rw [List.foldl_cons, PyDict.set_fresh _ _ _ hnot, ih]
      · simp
      · simpa [List.append_assoc] using hd
  simpa [qgStrKeys] using this hist [] (by simpa using hinj)

/-- C59. What `run(shots=...)` counts, for every circuit the backend accepts: for every value in the simulator's histogram of
the sampled registers there is one entry, whose key has the bits of the value at the positions of the measured qubits and 0
elsewhere, and whose count is the count of the value. No two values share a key, so no count is lost. -/
theorem C59_counts {S : Type} (sim : QSim S) (n : ℕ) (h0 : 0 < n) (gates : List Gate) (ops : List QOp)
    (hops : qgConvertAll n gates = .ok ops) (shots : ℕ) (sampling : String)
    (hnd : ((sim.sample n (qgNoMeasure ops) (qgSampled ops) shots sampling).map Prod.fst).Nodup)
    (hlt : ∀ p ∈ sim.sample n (qgNoMeasure ops) (qgSampled ops) shots sampling, p.1 < 2 ^ (qgSampled ops).length) :
    ((qgSample sim n ops shots sampling).map Prod.fst).Nodup ∧
    List.Forall₂ (fun (p : ℕ × ℕ) (e : String × ℕ) =>
        IsBitString n e.1 (fun k => ∃ i, (qgSampled ops)[i]? = some k ∧ p.1.testBit i = true) ∧ e.2 = p.2)
      (sim.sample n (qgNoMeasure ops) (qgSampled ops) shots sampling) (qgSample sim n ops shots sampling) := by
  obtain ⟨hsort, hmem, -⟩ := C59_sampled ops
  have hpos : ∀ p ∈ qgSampled ops, p < n := by
    intro p hp
    obtain ⟨r, hr⟩ := (hmem p).1 hp
    exact qgConvertAll_measured gates ops hops r p hr
  generalize hpd : qgSampled ops = pos at *
  generalize hhd : sim.sample n (qgNoMeasure ops) pos shots sampling = hist at *
  have hinj : ((hist.map Prod.fst).map (fun v => formatBin n (qgPermute (n - 1) v 0 pos 0))).Nodup := by
    refine hnd.map_on ?_
    intro v hv u hu e
    obtain ⟨p, hp, rfl⟩ := List.mem_map.1 hv
    obtain ⟨q, hq, rfl⟩ := List.mem_map.1 hu
    have k1 := C59_key n h0 pos hpos p.1
    have k2 := C59_key n h0 pos hpos q.1
    rw [e] at k1
    have hiff := isBitString_iff k1 k2
    have hnodup : pos.Nodup := hsort.imp (fun h => Nat.ne_of_lt h)
    refine Nat.eq_of_testBit_eq (fun i => ?_)
    by_cases hi : i < pos.length
    · have := hiff pos[i] (hpos _ (List.getElem_mem hi))
      have hu : ∀ w : ℕ, (∃ j, pos[j]? = some pos[i] ∧ w.testBit j = true) ↔ w.testBit i = true := by
        intro w
        constructor
        · rintro ⟨j, h1, h2⟩
          obtain ⟨hj, h1⟩ := List.getElem?_eq_some_iff.1 h1
          rw [(List.Nodup.getElem_inj_iff hnodup).1 h1] at h2
          exact h2
        · intro h; exact ⟨i, List.getElem?_eq_getElem hi, h⟩
      rw [hu, hu] at this
      rw [Bool.eq_iff_iff]; exact this
    · have hi : pos.length ≤ i := by omega
      rw [Nat.testBit_lt_two_pow ((hlt p hp).trans_le (Nat.pow_le_pow_right (by norm_num) hi)),
        Nat.testBit_lt_two_pow ((hlt q hq).trans_le (Nat.pow_le_pow_right (by norm_num) hi))]
  have he := qgStrKeys_eq n pos hist hinj
  have hs : qgSample sim n ops shots sampling = hist.map (fun p => (formatBin n (qgPermute (n - 1) p.1 0 pos 0), p.2)) := by
    simp only [qgSample, hpd, hhd, he]
  rw [hs]
  refine ⟨?_, ?_⟩
  · rw [List.map_map]; rw [List.map_map] at hinj; exact hinj
  · rw [List.forall₂_map_right_iff]
    exact List.forall₂_same.2 (fun p _ => ⟨C59_key n h0 pos hpos p.1, rfl⟩)

theorem qgObsInt_bit (vals : List Bool) (k : ℕ) : (qgObsInt vals).testBit k = (vals[k]?).getD false := by
  induction vals generalizing k with
  | nil => simp [qgObsInt]
  | cons b vals ih =>
    have e : qgObsInt (b :: vals) = Nat.bit b (qgObsInt vals) := by
      cases b <;> simp [qgObsInt, Nat.bit_val]
    rw [e]
    cases k with
    | zero => simp [Nat.testBit_bit_zero]
    | succ k => rw [Nat.testBit_bit_succ, ih]; simp

/-- C59. With `statevector_and_shots` the only key has the value of reference `k` at position `k`, and is counted once. -/
theorem C59_observed {S : Type} (sim : QSim S) (n : ℕ) (h0 : 0 < n) (ops : List QOp) :
    ∃ s, (qgStateAndSample sim n ops).2 = [(s, 1)] ∧ IsBitString n s (fun k => sim.obs n ops k = true) := by
  refine ⟨_, rfl, ?_⟩
  set vals := (List.range n).reverse.map (sim.obs n ops) with hv
  have hb : ∀ k, (qgObsInt vals).testBit k = if k < n then sim.obs n ops (n - 1 - k) else false := by
    intro k
    rw [qgObsInt_bit, hv, List.getElem?_map]
    split_ifs with hk
    · rw [List.getElem?_reverse (by simpa using hk)]
      simp only [List.length_range]
      rw [List.getElem?_range (by omega)]
      rfl
    · rw [List.getElem?_eq_none (by simp; omega)]; rfl
  have hlt : qgObsInt vals < 2 ^ n := by
    refine Nat.lt_pow_two_of_testBit _ (fun j hj => ?_)
    rw [hb, if_neg (by omega)]
  rw [IsBitString, formatBin_chars n _ h0 hlt]
  refine ⟨by simp, fun k hk => ?_⟩
  rw [List.getElem?_map, List.getElem?_range hk]
  have := hb (n - 1 - k)
  rw [if_pos (by omega), show n - 1 - (n - 1 - k) = k by omega] at this
  by_cases h : sim.obs n ops k = true
  · left; exact ⟨by simp [this, h], h⟩
  · right; exact ⟨by simp [this, h], h⟩

/-- A simulator whose histogram is fixed. -/
example : qgSample (S := Unit) ⟨fun _ _ => (), fun _ _ _ _ _ => [(0, 3), (2, 5)], fun _ _ _ => false⟩ 3
    [.gate .H [] false [] 0, .measure 2 2, .measure 0 0, .measure 2 2] 8 "qgate" = [("000", 3), ("001", 5)] := by
  have h : qgSampled [.gate .H [] false [] 0, .measure 2 2, .measure 0 0, .measure 2 2] = [0, 2] := by
    rw [qgSampled, show List.filterMap QOp.measured [.gate .H [] false [] 0, .measure 2 2, .measure 0 0, .measure 2 2] =
      [2, 0, 2] from rfl]
    decide
  simp only [qgSample, h]
  decide +kernel

end

end Blueqat
