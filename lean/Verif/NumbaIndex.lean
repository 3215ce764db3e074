import Verif.Numba
import Verif.QuantumLemmas
import Mathlib.Data.Set.Function
import Mathlib.Data.List.Sort

/-! Lemmas: the bit arithmetic of the numba kernels. -/

set_option linter.unusedSimpArgs false
set_option linter.unusedVariables false

namespace Blueqat

/-! ## Bits of masks and shifts -/

theorem toNat_one_shl {t : ℕ} (ht : t < 64) : ((1 : U64) <<< t).toNat = 2 ^ t := by
  have h : (2:ℕ) ^ t < 2 ^ 64 := Nat.pow_lt_pow_right (by norm_num) ht
  rw [BitVec.toNat_shiftLeft]
  have : (1 : U64).toNat = 1 := rfl
  rw [this, Nat.shiftLeft_eq, one_mul, Nat.mod_eq_of_lt h]

theorem bit_mask {t : ℕ} (ht : t < 64) (b : ℕ) : (((1 : U64) <<< t) - 1).getLsbD b = decide (b < t) := by
  have h : (2:ℕ) ^ t < 2 ^ 64 := Nat.pow_lt_pow_right (by norm_num) ht
  have hp : 0 < 2 ^ t := by positivity
  have e : (((1 : U64) <<< t) - 1).toNat = 2 ^ t - 1 := by
    rw [BitVec.toNat_sub, toNat_one_shl ht]
    have : (1 : U64).toNat = 1 := rfl
    rw [this]; omega
  rw [BitVec.getLsbD, e, Nat.testBit_two_pow_sub_one]

theorem bit_ofNat (i b : ℕ) : (BitVec.ofNat 64 i).getLsbD b = (decide (b < 64) && i.testBit b) := by
  simp [BitVec.getLsbD_ofNat]

theorem bit_shifted {t : ℕ} (ht : t < 64) (x : U64) (b : ℕ) :
    (nbShifted (((1 : U64) <<< t) - 1) x).getLsbD b =
      (decide (b < 64) && (if b < t then x.getLsbD b else if b = t then false else x.getLsbD (b - 1))) := by
  have hdisj : ((x &&& ~~~(((1 : U64) <<< t) - 1)) <<< 1) &&& (x &&& (((1 : U64) <<< t) - 1)) = 0 := by
    apply BitVec.eq_of_getLsbD_eq
    intro i hi
    simp only [BitVec.getLsbD_and, BitVec.getLsbD_shiftLeft, BitVec.getLsbD_not, bit_mask ht]
    by_cases h1 : i < t
    · by_cases h0 : i < 1
      · simp [h0]
      · have : i - 1 < t := by omega
        simp [this]
    · simp [h1]
  simp only [nbShifted]
  rw [BitVec.add_eq_or_of_and_eq_zero _ _ hdisj]
  simp only [BitVec.getLsbD_or, BitVec.getLsbD_and, BitVec.getLsbD_shiftLeft, BitVec.getLsbD_not, bit_mask ht]
  by_cases hb : b < 64
  · by_cases h1 : b < t
    · by_cases h0 : b < 1
      · simp [h0, h1, hb]
      · have : b - 1 < t := by omega
        simp [h1, this, hb]
    · by_cases h2 : b = t
      · subst h2
        by_cases h0 : b < 1
        · simp [h0]
        · have : b - 1 < b := by omega
          simp [this]
      · have h3 : ¬ b - 1 < t := by omega
        have h4 : b - 1 < 64 := by omega
        have h5 : ¬ b = 0 := by omega
        simp [h1, h2, h3, hb, h4, h5]
  · have : x.getLsbD b = false := BitVec.getLsbD_of_ge _ _ (by omega)
    simp [hb, this]

/-! ## Inserting a zero bit -/

/-- The number with a zero bit inserted at position `x`. -/
def insertZero (x i : ℕ) : ℕ := i / 2 ^ x * 2 ^ (x + 1) + i % 2 ^ x

theorem testBit_insertZero (x i b : ℕ) :
    (insertZero x i).testBit b = if b < x then i.testBit b else if b = x then false else i.testBit (b - 1) := by
  have hlt : i % 2 ^ x < 2 ^ (x + 1) := (Nat.mod_lt _ (by positivity)).trans (Nat.pow_lt_pow_right (by norm_num) (by omega))
  rw [insertZero, mul_comm, Nat.testBit_two_pow_mul_add _ hlt]
  by_cases h1 : b < x
  · have : b < x + 1 := by omega
    simp [h1, this, Nat.testBit_mod_two_pow]
  · by_cases h2 : b = x
    · subst h2; simp [Nat.testBit_mod_two_pow]
    · have h3 : ¬ b < x + 1 := by omega
      simp only [h1, h2, h3, if_false]
      rw [Nat.testBit_div_two_pow]
      congr 1; omega

theorem lt_pow_iff_bits (i n : ℕ) : i < 2 ^ n ↔ ∀ b ≥ n, i.testBit b = false :=
  ⟨fun h b hb => Nat.testBit_lt_two_pow (h.trans_le (Nat.pow_le_pow_right (by norm_num) hb)),
    fun h => Nat.lt_pow_two_of_testBit i h⟩

theorem insertZero_lt {x i m : ℕ} (hx : x ≤ m) : insertZero x i < 2 ^ (m + 1) ↔ i < 2 ^ m := by
  rw [lt_pow_iff_bits, lt_pow_iff_bits]
  constructor
  · intro h b hb
    have := h (b + 1) (by omega)
    rw [testBit_insertZero, if_neg (by omega), if_neg (by omega)] at this
    simpa using this
  · intro h b hb
    rw [testBit_insertZero, if_neg (by omega), if_neg (by omega)]
    exact h _ (by omega)

theorem insertZero_inj (x : ℕ) : Function.Injective (insertZero x) := by
  intro i j h
  apply Nat.eq_of_testBit_eq
  intro b
  by_cases hb : b < x
  · have := congrArg (fun k => k.testBit b) h
    simpa [testBit_insertZero, hb] using this
  · have := congrArg (fun k => k.testBit (b + 1)) h
    simpa [testBit_insertZero, show ¬ b + 1 < x by omega, show b + 1 ≠ x by omega] using this

theorem insertZero_surj {x j : ℕ} (h : j.testBit x = false) : ∃ i, insertZero x i = j := by
  refine ⟨j / 2 ^ (x + 1) * 2 ^ x + j % 2 ^ x, ?_⟩
  apply Nat.eq_of_testBit_eq
  intro b
  have hlt : j % 2 ^ x < 2 ^ x := Nat.mod_lt _ (by positivity)
  rw [testBit_insertZero]
  have key : ∀ b, (j / 2 ^ (x + 1) * 2 ^ x + j % 2 ^ x).testBit b = if b < x then j.testBit b else j.testBit (b + 1) := by
    intro b
    rw [mul_comm, Nat.testBit_two_pow_mul_add _ hlt]
    by_cases h1 : b < x
    · simp [h1, Nat.testBit_mod_two_pow]
    · simp only [h1, if_false]
      rw [Nat.testBit_div_two_pow]; congr 1; omega
  by_cases h1 : b < x
  · simp [h1, key]
  · by_cases h2 : b = x
    · subst h2; simp [h]
    · simp only [h1, h2, if_false, key, show ¬ b - 1 < x by omega]
      congr 1; omega

/-- Insert zero bits at the given positions, in this order. -/
def insertZeros : List ℕ → ℕ → ℕ
  | [], i => i
  | x :: xs, i => insertZeros xs (insertZero x i)

theorem testBit_insertZeros_low (xs : List ℕ) (i b : ℕ) (h : ∀ x ∈ xs, b < x) :
    (insertZeros xs i).testBit b = i.testBit b := by
  induction xs generalizing i with
  | nil => rfl
  | cons x xs ih =>
    rw [insertZeros, ih _ (fun y hy => h y (by simp [hy])), testBit_insertZero, if_pos (h x (by simp))]

theorem insertZeros_zero (xs : List ℕ) (hs : xs.Pairwise (· < ·)) (i : ℕ) :
    ∀ x ∈ xs, (insertZeros xs i).testBit x = false := by
  induction xs generalizing i with
  | nil => simp
  | cons x xs ih =>
    rw [List.pairwise_cons] at hs
    intro y hy
    rcases List.mem_cons.1 hy with rfl | hy
    · rw [insertZeros, testBit_insertZeros_low _ _ _ hs.1, testBit_insertZero]; simp
    · exact ih hs.2 _ y hy

theorem insertZeros_inj (xs : List ℕ) : Function.Injective (insertZeros xs) := by
  induction xs with
  | nil => exact fun _ _ h => h
  | cons x xs ih => exact fun i j h => insertZero_inj x (ih h)

theorem insertZeros_surj (xs : List ℕ) (hs : xs.Pairwise (· < ·)) (j : ℕ) (hj : ∀ x ∈ xs, j.testBit x = false) :
    ∃ i, insertZeros xs i = j := by
  induction xs generalizing j with
  | nil => exact ⟨j, rfl⟩
  | cons x xs ih =>
    rw [List.pairwise_cons] at hs
    obtain ⟨i, hi⟩ := ih hs.2 j (fun y hy => hj y (by simp [hy]))
    have : i.testBit x = false := by
      rw [← testBit_insertZeros_low xs i x hs.1, hi]; exact hj x (by simp)
    obtain ⟨k, hk⟩ := insertZero_surj this
    exact ⟨k, by rw [insertZeros, hk, hi]⟩

theorem insertZeros_lt (xs : List ℕ) (hs : xs.Pairwise (· < ·)) (i n : ℕ) (hx : ∀ x ∈ xs, x < n) :
    insertZeros xs i < 2 ^ n ↔ i < 2 ^ (n - xs.length) := by
  induction xs generalizing i with
  | nil => rfl
  | cons x xs ih =>
    have hs' := hs
    rw [List.pairwise_cons] at hs
    have hlen : x + xs.length < n := by
      have : ∀ (xs : List ℕ) (x : ℕ), (x :: xs).Pairwise (· < ·) → (∀ y ∈ x :: xs, y < n) → x + xs.length < n := by
        intro xs
        induction xs with
        | nil => intro x _ h; simpa using h x (by simp)
        | cons y ys ih =>
          intro x h1 h2
          rw [List.pairwise_cons] at h1
          have := ih y h1.2 (fun z hz => h2 z (List.mem_cons_of_mem _ hz))
          have := h1.1 y (by simp)
          simp only [List.length_cons]; omega
      exact this xs x hs' hx
    rw [insertZeros, ih hs.2 _ (fun y hy => hx y (by simp [hy]))]
    have e : n - xs.length = (n - (xs.length + 1)) + 1 := by omega
    rw [e, insertZero_lt (by omega)]
    rfl

/-! ## The kernels insert zero bits -/

theorem shifted_eq {t n i : ℕ} (ht : t < n) (hn : n ≤ 64) (hi : i < 2 ^ (n - 1)) :
    (nbShifted (((1 : U64) <<< t) - 1) (BitVec.ofNat 64 i)).toNat = insertZero t i := by
  have h1 : insertZero t i < 2 ^ n := by
    obtain ⟨m, rfl⟩ : ∃ m, n = m + 1 := ⟨n - 1, by omega⟩
    exact (insertZero_lt (by omega)).2 hi
  have h2 : i < 2 ^ 64 := hi.trans_le (Nat.pow_le_pow_right (by norm_num) (by omega))
  apply Nat.eq_of_testBit_eq
  intro b
  show BitVec.getLsbD _ b = _
  rw [bit_shifted (by omega), testBit_insertZero]
  simp only [bit_ofNat]
  by_cases hb : b < 64
  · have : b - 1 < 64 := by omega
    simp [hb, this]
  · have hz := (lt_pow_iff_bits _ n).1 h1 b (by omega)
    rw [testBit_insertZero] at hz
    simp only [hb, decide_false, Bool.false_and]; exact hz.symm

/-- Bits contributed by the blocks of `_mult_shifted` from block `p` on, whose lowest bit goes to `lo`. -/
def blockBit (p lo : ℕ) : List ℕ → (ℕ → Bool) → ℕ → Bool
  | [], f, b => decide (lo ≤ b) && f (b - p)
  | x :: xs, f, b => (decide (lo ≤ b) && decide (b < x) && f (b - p)) || blockBit (p + 1) (x + 1) xs f b

theorem blockBit_insertZeros (xs : List ℕ) : ∀ (p lo : ℕ) (i y : ℕ), xs.Pairwise (· < ·) → (∀ x ∈ xs, lo ≤ x) → p ≤ lo →
    (∀ b ≥ lo, y.testBit b = i.testBit (b - p)) → ∀ b ≥ lo, (insertZeros xs y).testBit b = blockBit p lo xs i.testBit b := by
  induction xs with
  | nil => intro p lo i y _ _ _ h b hb; simp [insertZeros, blockBit, h b hb, hb]
  | cons x xs ih =>
    intro p lo i y hs hx hp h b hb
    rw [List.pairwise_cons] at hs
    rw [insertZeros, blockBit]
    have hxlo := hx x (by simp)
    by_cases hbx : x + 1 ≤ b
    · rw [ih (p + 1) (x + 1) i (insertZero x y) hs.2 (fun z hz => hs.1 z hz) (by omega) ?_ b hbx]
      · simp [show ¬ b < x by omega]
      · intro c hc
        rw [testBit_insertZero, if_neg (by omega), if_neg (by omega), h _ (by omega)]
        congr 1; omega
    · have hz : blockBit (p + 1) (x + 1) xs i.testBit b = false := by
        have : ∀ (ys : List ℕ) (p lo : ℕ), b < lo → (∀ z ∈ ys, b < z) → blockBit p lo ys i.testBit b = false := by
          intro ys
          induction ys with
          | nil => intro p lo h1 _; simp [blockBit, show ¬ lo ≤ b by omega]
          | cons z ys ihy =>
            intro p lo h1 h2
            have := h2 z (by simp)
            rw [blockBit, ihy (p + 1) (z + 1) (by omega) (fun w hw => h2 w (by simp [hw]))]
            simp [show ¬ lo ≤ b by omega]
        exact this xs _ _ (by omega) (fun z hz => by have := hs.1 z hz; omega)
      rw [testBit_insertZeros_low _ _ _ (fun z hz => by have := hs.1 z hz; omega), testBit_insertZero, hz]
      by_cases hb2 : b < x
      · simp [hb2, hb, h b hb]
      · simp [hb2, show b = x by omega]

/-- `masks[i] & ~masks[i - 1]` for all positions; before the first stands `prev`. -/
def diffs (prev : U64) : List U64 → List U64
  | [] => []
  | m :: ms => (m &&& ~~~prev) :: diffs m ms

theorem length_diffs (prev : U64) (M : List U64) : (diffs prev M).length = M.length := by
  induction M generalizing prev with
  | nil => rfl
  | cons m ms ih => simp [diffs, ih]

theorem diffs_getD (M : List U64) (prev : U64) (i : ℕ) (hi : i < M.length) :
    (diffs prev M).getD i 0 = M.getD i 0 &&& ~~~(if i = 0 then prev else M.getD (i - 1) 0) := by
  induction M generalizing prev i with
  | nil => simp at hi
  | cons m ms ih =>
    cases i with
    | zero => simp [diffs]
    | succ i =>
      simp only [List.length_cons, Nat.add_lt_add_iff_right] at hi
      simp only [diffs, List.getD_cons_succ, ih m i hi]
      cases i <;> simp

theorem maskLoop_length (j : ℕ) (M : List U64) : (nbMaskLoop j M).length = M.length := by
  induction j generalizing M with
  | zero => rfl
  | succ j ih => simp [nbMaskLoop, ih]

theorem getD_set (M : List U64) (i j : ℕ) (v : U64) (hj : j < M.length) :
    (M.set i v).getD j 0 = if i = j then v else M.getD j 0 := by
  by_cases h : i = j
  · subst h; simp [List.getD_eq_getElem?_getD, List.getElem?_set, hj]
  · simp [List.getD_eq_getElem?_getD, List.getElem?_set, h]

theorem maskLoop_getD (j : ℕ) (M : List U64) (hj : j < M.length) (i : ℕ) (hi : i < M.length) :
    (nbMaskLoop j M).getD i 0 = if 1 ≤ i ∧ i ≤ j then M.getD i 0 &&& ~~~M.getD (i - 1) 0 else M.getD i 0 := by
  induction j generalizing M with
  | zero => rw [nbMaskLoop, if_neg (by omega)]
  | succ j ih =>
    rw [nbMaskLoop, ih _ (by simp; omega) (by simpa using hi), getD_set _ _ _ _ hi, getD_set _ _ _ _ (by omega)]
    by_cases h1 : i = j + 1
    · subst h1
      rw [if_neg (by omega), if_pos rfl, if_pos (by omega)]; simp
    · by_cases h2 : 1 ≤ i ∧ i ≤ j
      · rw [if_pos h2, if_pos (show 1 ≤ i ∧ i ≤ j + 1 by omega), if_neg (by omega), if_neg (by omega)]
      · rw [if_neg h2, if_neg (show ¬ (1 ≤ i ∧ i ≤ j + 1) by omega), if_neg (by omega)]

theorem maskLoop_eq (j : ℕ) (M : List U64) (hj : M.length = j + 1) : nbMaskLoop j M = diffs 0 M := by
  apply List.ext_getElem
  · rw [maskLoop_length, length_diffs]
  · intro i h1 h2
    rw [length_diffs] at h2
    have e1 := maskLoop_getD j M (by omega) i h2
    have e2 := diffs_getD M 0 i h2
    have h3 : i < (diffs 0 M).length := by rw [length_diffs]; exact h2
    rw [List.getD_eq_getElem _ _ h1] at e1
    rw [List.getD_eq_getElem _ _ h3] at e2
    rw [e1, e2]
    by_cases h0 : i = 0
    · subst h0
      have : ∀ x : U64, x &&& ~~~(0 : U64) = x := by
        intro x
        have : ~~~(0 : U64) = BitVec.allOnes 64 := by decide
        rw [this, BitVec.and_allOnes]
      rw [if_neg (by omega), if_pos rfl, this]
    · rw [if_pos (by omega), if_neg h0]

/-- The masks before the final loop of `_create_masks`, for the indices from position `p` on. -/
def rawMasks (p : ℕ) (xs : List ℕ) : List U64 :=
  (xs.zipIdx p).map (fun q => ((1 : U64) <<< (q.1 - q.2)) - 1) ++ [BitVec.allOnes 64]

theorem createMasks_eq (l : List ℕ) :
    nbCreateMasks l = diffs 0 (rawMasks 0 (l.mergeSort (fun a b => decide (a ≤ b)))) := by
  simp only [nbCreateMasks]
  rw [maskLoop_eq _ _ (by simp)]
  rfl

theorem multShifted_bits (xs : List ℕ) : ∀ (p lo : ℕ) (prev x : U64) (acc : U64) (b : ℕ), b < 64 →
    (∀ y ∈ xs, y < 64) → xs.Pairwise (· < ·) → (∀ y ∈ xs, lo ≤ y) → p ≤ lo →
    (∀ c < 64, prev.getLsbD c = decide (c < lo - p)) →
    (((diffs prev (rawMasks p xs)).zipIdx p).foldl (fun sh q => sh ||| ((x &&& q.1) <<< q.2)) acc).getLsbD b =
      (acc.getLsbD b || blockBit p lo xs x.getLsbD b) := by
  induction xs with
  | nil =>
    intro p lo prev x acc b hb _ _ _ hp hprev
    simp only [rawMasks, List.zipIdx_nil, List.map_nil, List.nil_append, diffs, List.zipIdx_cons, List.foldl_cons,
      List.foldl_nil, BitVec.getLsbD_or, BitVec.getLsbD_shiftLeft, BitVec.getLsbD_and, BitVec.getLsbD_not, blockBit]
    congr 1
    by_cases h1 : b < p
    · simp [h1, show ¬ lo ≤ b by omega]
    · have hbp : b - p < 64 := by omega
      rw [hprev _ hbp]
      by_cases h2 : lo ≤ b
      · simp only [h1, h2, hb, hbp, show ¬ b - p < lo - p by omega, BitVec.getLsbD_allOnes]; simp
      · simp [h1, h2, hb, hbp, show b - p < lo - p by omega]
  | cons y ys ih =>
    intro p lo prev x acc b hb hlt hs hlo hp hprev
    rw [List.pairwise_cons] at hs
    have hy := hlt y (by simp)
    have hly := hlo y (by simp)
    have hraw : rawMasks p (y :: ys) = (((1 : U64) <<< (y - p)) - 1) :: rawMasks (p + 1) ys := by
      simp [rawMasks, List.zipIdx_cons]
    rw [hraw, diffs, List.zipIdx_cons, List.foldl_cons,
      ih (p + 1) (y + 1) _ x _ b hb (fun z hz => hlt z (by simp [hz])) hs.2 (fun z hz => hs.1 z hz) (by omega) ?_]
    · simp only [BitVec.getLsbD_or, BitVec.getLsbD_shiftLeft, BitVec.getLsbD_and, BitVec.getLsbD_not, blockBit,
        bit_mask (show y - p < 64 by omega), Bool.or_assoc]
      congr 1
      congr 1
      by_cases h1 : b < p
      · simp [h1, show ¬ lo ≤ b by omega]
      · have hbp : b - p < 64 := by omega
        rw [hprev _ hbp]
        by_cases h2 : lo ≤ b
        · by_cases h3 : b < y
          · simp [h1, h2, h3, hb, hbp, show ¬ b - p < lo - p by omega, show b - p < y - p by omega]
          · simp [h1, h2, h3, hb, hbp, show ¬ b - p < lo - p by omega, show ¬ b - p < y - p by omega]
        · simp [h1, h2, hb, hbp, show b - p < lo - p by omega]
    · intro c hc
      rw [bit_mask (by omega)]
      congr 1
      simp only [eq_iff_iff]; omega

theorem sorted_mergeSort (l : List ℕ) (h : l.Nodup) :
    (l.mergeSort (fun a b => decide (a ≤ b))).Pairwise (· < ·) := by
  have h1 : (l.mergeSort (fun a b => decide (a ≤ b))).Pairwise (fun a b => decide (a ≤ b) = true) :=
    List.pairwise_mergeSort (le := fun a b => decide (a ≤ b)) (by intro a b c; simp; omega) (by intro a b; simp; omega) l
  have h2 : (l.mergeSort (fun a b => decide (a ≤ b))).Nodup := (List.mergeSort_perm l _).nodup_iff.2 h
  have := h1.and h2
  exact this.imp (fun {a b} hab => by
    obtain ⟨h3, h4⟩ := hab
    simp only [decide_eq_true_eq] at h3
    omega)

theorem multShifted_eq {l : List ℕ} {n i : ℕ} (hl : l.Nodup) (hx : ∀ x ∈ l, x < n) (hn : n ≤ 64)
    (hi : i < 2 ^ (n - l.length)) :
    (nbMultShifted (nbCreateMasks l) (BitVec.ofNat 64 i)).toNat =
      insertZeros (l.mergeSort (fun a b => decide (a ≤ b))) i := by
  have hs := sorted_mergeSort l hl
  have hmem : ∀ x ∈ l.mergeSort (fun a b => decide (a ≤ b)), x < n := fun x hxm =>
    hx x ((List.mergeSort_perm l _).mem_iff.1 hxm)
  have hlen : (l.mergeSort (fun a b => decide (a ≤ b))).length = l.length := by simp
  have hlt : insertZeros (l.mergeSort (fun a b => decide (a ≤ b))) i < 2 ^ n :=
    (insertZeros_lt _ hs i n hmem).2 (by rw [hlen]; exact hi)
  apply Nat.eq_of_testBit_eq
  intro b
  show BitVec.getLsbD _ b = _
  by_cases hb : b < 64
  · rw [nbMultShifted, createMasks_eq,
      multShifted_bits _ 0 0 0 _ 0 b hb (fun y hy => (hmem y hy).trans_le hn) hs (by simp) le_rfl (by simp),
      blockBit_insertZeros _ 0 0 i i hs (by simp) le_rfl (by simp) b (Nat.zero_le b)]
    rw [show (0 : U64).getLsbD b = false by simp, Bool.false_or]
    have : ∀ (ys : List ℕ) (p lo : ℕ), p ≤ lo → (∀ y ∈ ys, lo ≤ y) → ys.Pairwise (· < ·) →
        blockBit p lo ys (BitVec.ofNat 64 i).getLsbD b = blockBit p lo ys i.testBit b := by
      intro ys
      induction ys with
      | nil => intro p lo hp _ _; simp only [blockBit, bit_ofNat, show b - p < 64 by omega, decide_true, Bool.true_and]
      | cons y ys ih =>
        intro p lo hp hy hs
        rw [List.pairwise_cons] at hs
        have := hy y (by simp)
        rw [blockBit, blockBit, ih (p + 1) (y + 1) (by omega) (fun z hz => hs.1 z hz) hs.2]
        simp only [bit_ofNat, show b - p < 64 by omega, decide_true, Bool.true_and]
    exact this _ 0 0 le_rfl (by simp) hs
  · rw [BitVec.getLsbD_of_ge _ _ (by omega)]
    exact ((lt_pow_iff_bits _ n).1 hlt b (by omega)).symm

end Blueqat
