import Verif.Props.NumPartition
import Mathlib.Tactic.IntervalCases

/-!
# Property C88: the factoring example
-/

set_option linter.unusedSimpArgs false
set_option linter.unusedVariables false

namespace Blueqat

open Spec

noncomputable section

variable {V M C B A R : Type} (kit : Kit C B A R) (isAttr : String → Bool)

/-! ## get_nbit -/

theorem getNbitLoop_spec (n : ℕ) : ∀ fuel m, n ≤ 2 ^ (m + fuel) → (∀ j, 1 ≤ j → j < m → 2 ^ j < n) →
    m ≤ getNbitLoop n fuel m ∧ n ≤ 2 ^ getNbitLoop n fuel m ∧ ∀ j, 1 ≤ j → j < getNbitLoop n fuel m → 2 ^ j < n := by
  intro fuel
  induction fuel with
  | zero => intro m h1 h2; exact ⟨le_rfl, h1, h2⟩
  | succ f ih =>
    intro m h1 h2
    rw [getNbitLoop]
    split_ifs with h
    · obtain ⟨a, b, c⟩ := ih (m + 1) (by rwa [show m + 1 + f = m + (f + 1) by ring]) (by
        intro j hj1 hj2
        rcases Nat.lt_succ_iff_lt_or_eq.1 hj2 with h' | rfl
        · exact h2 j hj1 h'
        · exact h)
      exact ⟨by omega, b, c⟩
    · exact ⟨le_rfl, by omega, h2⟩

/-- **C88.** `get_nbit(n)` is the least `m ≥ 1` with `n ≤ 2^m`. -/
theorem C88_get_nbit (n : ℕ) : IsLeast {m | 1 ≤ m ∧ n ≤ 2 ^ m} (getNbit n) := by
  obtain ⟨a, b, c⟩ := getNbitLoop_spec n n 1 (by
    have : n < 2 ^ n := Nat.lt_two_pow_self
    have : 2 ^ n ≤ 2 ^ (1 + n) := Nat.pow_le_pow_right (by norm_num) (by omega)
    omega) (by intro j h1 h2; omega)
  refine ⟨⟨a, b⟩, fun m hm => ?_⟩
  by_contra h
  have := c m hm.1 (by rw [getNbit] at h; omega)
  have := hm.2
  omega

/-! ## Odd numbers -/

theorem oddNumber_succ (n : ℕ) (bit : ℕ → Bool) :
    oddNumber (n + 1) bit = oddNumber n bit + if bit n then 2 ^ (n + 1) else 0 := by
  rw [oddNumber, oddNumber, Finset.sum_range_succ, add_assoc]

theorem oddNumber_lt (n : ℕ) (bit : ℕ → Bool) : Odd (oddNumber n bit) ∧ oddNumber n bit < 2 ^ (n + 1) := by
  induction n with
  | zero => simp [oddNumber]
  | succ n ih =>
    rw [oddNumber_succ]
    constructor
    · refine ih.1.add_even ?_
      split_ifs
      · exact (Nat.even_pow.2 ⟨even_two, by omega⟩)
      · exact Even.zero
    · have : 2 ^ (n + 1 + 1) = 2 ^ (n + 1) + 2 ^ (n + 1) := by ring
      have h2 := ih.2
      split_ifs <;> omega

theorem oddNumber_congr {n : ℕ} {b c : ℕ → Bool} (h : ∀ i < n, b i = c i) : oddNumber n b = oddNumber n c := by
  rw [oddNumber, oddNumber]
  congr 1
  exact Finset.sum_congr rfl fun i hi => by rw [h i (Finset.mem_range.1 hi)]

theorem oddNumber_surj (n N : ℕ) (h1 : Odd N) (h2 : N < 2 ^ (n + 1)) : ∃ bit, oddNumber n bit = N := by
  induction n generalizing N with
  | zero =>
    refine ⟨fun _ => false, ?_⟩
    have : N = 1 := by
      have h2' : N < 2 := by simpa using h2
      rcases h1 with ⟨k, rfl⟩; omega
    simp [oddNumber, this]
  | succ n ih =>
    by_cases h : N < 2 ^ (n + 1)
    · obtain ⟨bit, hb⟩ := ih N h1 h
      refine ⟨fun i => if i = n then false else bit i, ?_⟩
      rw [oddNumber_succ, ← hb]
      simp only [if_true, Bool.false_eq_true, if_false, add_zero]
      exact oddNumber_congr fun i hi => by rw [if_neg (by omega)]
    · have e : 2 ^ (n + 1 + 1) = 2 ^ (n + 1) + 2 ^ (n + 1) := by ring
      obtain ⟨bit, hb⟩ := ih (N - 2 ^ (n + 1)) (by
        rw [Nat.odd_sub (by omega)]
        exact ⟨fun _ => Nat.even_pow.2 ⟨even_two, by omega⟩, fun _ => h1⟩) (by omega)
      refine ⟨fun i => if i = n then true else bit i, ?_⟩
      rw [oddNumber_succ, if_pos (by simp),
        oddNumber_congr (c := bit) (fun i hi => by rw [if_neg (by omega)]), hb]
      omega

/-! ## The Hamiltonian -/

theorem quboBit_cost (i : ℕ) : valOp (quboBit i) = costOp (fun k => if k.testBit i then 1 else 0) := by
  refine LinearMap.ext fun ψ => funext fun k => ?_
  rw [quboBit_op]
  show _ = (((if k.testBit i then 1 else 0 : ℝ)) : ℂ) * ψ k
  rw [bitOf]

theorem num_cost (x : ℝ) : valOp (.num (.real x)) = costOp (fun _ => x) := by
  show (x : ℂ) • (1 : Operator) = _
  rw [diagOp_one, diagOp_smul, costOp]; simp

theorem mkExpr_cost (offset n : ℕ) : (mkExpr offset n).Distinct ∧
    valOp (mkExpr offset n) = costOp (fun k => (oddNumber n (fun i => k.testBit (i + offset)) : ℝ)) := by
  have h := foldl_costOp (fun expr (i : ℕ) => pvAdd expr (pvMul (.num (.real (2 ^ (i + 1)))) (quboBit (i + offset))))
    (fun i k => 2 ^ (i + 1) * if k.testBit (i + offset) then 1 else 0) (List.range n) (by
      intro h i _ hd
      refine ⟨distinct_add _ _, ?_⟩
      rw [pvAdd_op _ _ (distinct_toExpr hd), pvMul_op, num_cost, quboBit_cost, costOp, costOp, diagOp_mul]
      congr 1
      rw [costOp]
      congr 1; funext k; push_cast; rfl)
    (.expr (.fromNumber 1)) (fromNumber_nodup _) (fun _ => 1) (by
      show exprOp (.fromNumber 1) = _
      rw [fromNumber_op, one_smul, diagOp_one, costOp]; simp)
  refine ⟨h.1, h.2.trans ?_⟩
  congr 1; funext k
  rw [oddNumber]
  push_cast
  congr 1
  rw [list_range_sum]
  refine Finset.sum_congr rfl fun i _ => ?_
  split_ifs <;> simp

/-- The factors that the bits of `k` stand for. -/
def factorsOf (num k : ℕ) : ℕ × ℕ := oddPair (factoringBits1 num) (factoringBits2 num) k.testBit

theorem mkExpr_expr (offset n : ℕ) : ∃ e, mkExpr offset n = .expr e := by
  rw [mkExpr]
  generalize List.range n = l
  have : ∀ (l : List ℕ) (e : PExpr), ∃ e', l.foldl (fun expr (i : ℕ) =>
      pvAdd expr (pvMul (.num (.real (2 ^ (i + 1)))) (quboBit (i + offset)))) (.expr e) = .expr e' := by
    intro l
    induction l with
    | nil => intro e; exact ⟨e, rfl⟩
    | cons i l ih => intro e; exact ih _
  exact this l _

theorem factoring_cost (num : ℕ) : ∃ e, factoringHamiltonian num = .ok (.expr e) ∧
    valOp (.expr e) = costOp (fun k => ((num : ℝ) - (factorsOf num k).1 * (factorsOf num k).2) ^ 2) := by
  obtain ⟨e1, h1⟩ := mkExpr_expr 0 (factoringBits1 num)
  obtain ⟨e2, h2⟩ := mkExpr_expr (factoringBits1 num) (factoringBits2 num)
  have hm : pvMul (mkExpr 0 (factoringBits1 num)) (mkExpr (factoringBits1 num) (factoringBits2 num)) = .expr (e1.mul e2) := by
    rw [h1, h2]; rfl
  have hs : ∃ e3, pvSub (.num (.real num)) (.expr (e1.mul e2)) = .expr e3 := ⟨_, rfl⟩
  obtain ⟨e3, h3⟩ := hs
  have hp : pvPow (.expr e3) 2 = .ok (.expr (e3.mul e3)) := rfl
  have hop := pvPow_op (n := 2) hp
  refine ⟨e3.mul e3, by rw [factoringHamiltonian, hm, h3, hp], hop.trans ?_⟩
  rw [← h3, pvSub_op _ _ (distinct_toExpr (distinct_of_kind (by simp [kindOf]))), ← hm, pvMul_op,
    (mkExpr_cost _ _).2, (mkExpr_cost _ _).2, num_cost]
  simp only [costOp, diagOp_mul, diagOp_sub, diagOp_pow, factorsOf, oddPair, add_zero, add_comm (factoringBits1 num)]
  congr 1; funext k; push_cast; rfl

theorem separatorLoop_eq (bits : List Bool) :
    separatorLoop (bits.map (fun b => if b then 1 else 0)) = oddNumber bits.length (fun i => bits.getD i false) := by
  have : ∀ (bits : List Bool) (p m : ℕ), ((bits.map (fun b => if b then 1 else 0)).foldl
      (fun s b => (if b ≠ 0 then s.1 + 2 ^ s.2 else s.1, s.2 + 1)) ((p, m) : ℕ × ℕ)).1 =
      p + ∑ i ∈ Finset.range bits.length, if bits.getD i false then 2 ^ (i + m) else 0 := by
    intro bits
    induction bits with
    | nil => intro p m; simp
    | cons b l ih =>
      intro p m
      rw [List.map_cons, List.foldl_cons, ih, List.length_cons, Finset.sum_range_succ']
      simp only [List.getD_cons_succ, List.getD_cons_zero, zero_add, show ∀ i, i + 1 + m = i + (m + 1) by intro i; ring]
      cases b <;> simp; ring
  exact this bits 1 1

theorem bitsAt_map (n o k : ℕ) : (List.range n).map (fun q => if k.testBit (q + o) then 1 else 0) =
    ((List.range n).map (fun q => k.testBit (q + o))).map (fun b => if b then 1 else 0) := by
  rw [List.map_map]; rfl

theorem separator_bits (n o k : ℕ) : separatorLoop ((List.range n).map (fun q => if k.testBit (q + o) then 1 else 0)) =
    oddNumber n (fun i => k.testBit (i + o)) := by
  rw [bitsAt_map, separatorLoop_eq]
  simp only [List.length_map, List.length_range]
  exact oddNumber_congr fun i hi => by simp [hi]

theorem separator_ok (num k : ℕ) :
    bitseparator num (bitsAt (List.range (factoringBits1 num + factoringBits2 num)) k) = .ok (factorsOf num k) := by
  have h1 := separator_bits (factoringBits1 num) 0 k
  have h2 := separator_bits (factoringBits2 num) (factoringBits1 num) k
  rw [bitseparator, if_pos (by simp [bitsAt])]
  have e1 : (bitsAt (List.range (factoringBits1 num + factoringBits2 num)) k).take (factoringBits1 num) =
      (List.range (factoringBits1 num)).map (fun q => if k.testBit (q + 0) then 1 else 0) := by
    rw [bitsAt, ← List.map_take, List.take_range]; simp
  have e2 : (bitsAt (List.range (factoringBits1 num + factoringBits2 num)) k).drop (factoringBits1 num) =
      (List.range (factoringBits2 num)).map (fun q => if k.testBit (q + factoringBits1 num) then 1 else 0) := by
    rw [bitsAt, ← List.map_drop, List.range_add, List.drop_append_of_le_length (by simp), List.drop_eq_nil_of_le (by simp),
      List.nil_append, List.map_map]
    refine List.map_congr_left fun q _ => ?_
    simp [add_comm]
  rw [e1, e2, h1, h2, factorsOf, oddPair]
  simp [add_comm]

/-- **C88.** The Hamiltonian of `factoring_qaoa` is `(num - p*q)²`, where `p` is the odd number made from the first bits of the
basis state and `q` the one made from the rest. -/
theorem C88_energy (num : ℕ) : ∃ e, factoringHamiltonian num = .ok (.expr e) ∧ valOp (.expr e) = costOp (fun k =>
    let pq := oddPair (factoringBits1 num) (factoringBits2 num) k.testBit
    ((num : ℝ) - pq.1 * pq.2) ^ 2) := factoring_cost num

/-- C88. `bitseparator` gives the same two numbers; it fails exactly if the number of bits is wrong. -/
theorem C88_separator (num k : ℕ) (bits : List ℕ) :
    bitseparator num (bitsAt (List.range (factoringBits1 num + factoringBits2 num)) k) =
      .ok (oddPair (factoringBits1 num) (factoringBits2 num) k.testBit) ∧
    (bits.length ≠ factoringBits1 num + factoringBits2 num → bitseparator num bits = .error .assertionError) := by
  refine ⟨separator_ok num k, fun h => ?_⟩
  rw [bitseparator, if_neg h]

theorem energy_zero (num p q : ℕ) : 0 ≤ ((num : ℝ) - p * q) ^ 2 ∧ (((num : ℝ) - p * q) ^ 2 = 0 ↔ p * q = num) := by
  refine ⟨sq_nonneg _, ?_⟩
  rw [sq_eq_zero_iff, sub_eq_zero]
  constructor
  · intro h; exact_mod_cast h.symm
  · intro h; rw [← h]; push_cast; rfl

theorem bits12 (num : ℕ) : factoringBits2 num = factoringBits1 num + 1 := by
  have := (C88_get_nbit num.sqrt).1.1
  rw [factoringBits1, factoringBits2]; omega

theorem oddNumber_false (n : ℕ) (b : ℕ → Bool) (h : ∀ i < n, b i = false) : oddNumber n b = 1 := by
  rw [oddNumber, Finset.sum_eq_zero fun i hi => by rw [h i (Finset.mem_range.1 hi)]; rfl, add_zero]

/-- **C88.** For every number but 2, the Hamiltonian has as many qubits as `bitseparator` wants bits, so it does not fail on the
outcomes of the run. -/
theorem C88_qubits (num : ℕ) (hnum : num ≠ 2) (e : PExpr) (he : factoringHamiltonian num = .ok (.expr e)) :
    (PVal.expr e).toExpr.simplify.nQubits = factoringBits1 num + factoringBits2 num := by
  obtain ⟨e', h1, h2⟩ := factoring_cost num
  rw [he] at h1
  cases h1
  have hle : ∀ m, (PVal.expr e).toExpr.simplify.nQubits ≤ m ↔ _ := C85_qubits (.expr e) _ h2
  apply le_antisymm
  · rw [hle]
    intro j k hjk
    have e1 : factorsOf num j = factorsOf num k := by
      rw [factorsOf, factorsOf, oddPair, oddPair]
      rw [oddNumber_congr (fun i hi => hjk i (by omega)), oddNumber_congr (n := factoringBits2 num) (fun i hi => hjk _ (by omega))]
    rw [e1]
  · by_contra hlt
    push_neg at hlt
    obtain ⟨n1, hn1⟩ : ∃ n1, n1 = factoringBits1 num := ⟨_, rfl⟩
    have hb := bits12 num
    have hn := (hle (n1 + n1)).1 (by omega)
    simp only [factorsOf, oddPair, hb, ← hn1] at hn
    -- the topmost bit flipped, the other bits of `q` zero
    have key : ∀ bit : ℕ → Bool, num = oddNumber n1 bit * (1 + 2 ^ n1) := by
      intro bit
      obtain ⟨k, -, hk⟩ := exists_code (fun i => if i < n1 then bit i else false) (n1 + n1 + 1)
      obtain ⟨j, -, hj⟩ := exists_code (fun i => if i < n1 then bit i else decide (i = n1 + n1)) (n1 + n1 + 1)
      have h := hn k j (by
        intro i hi
        rw [hk i (by omega), hj i (by omega)]
        split_ifs
        · rfl
        · simp; omega)
      have ek : oddNumber n1 k.testBit = oddNumber n1 bit := oddNumber_congr fun i hi => by rw [hk i (by omega), if_pos hi]
      have ej : oddNumber n1 j.testBit = oddNumber n1 bit := oddNumber_congr fun i hi => by rw [hj i (by omega), if_pos hi]
      have fk : oddNumber (n1 + 1) (fun i => k.testBit (n1 + i)) = 1 :=
        oddNumber_false _ _ fun i hi => by rw [hk _ (by omega), if_neg (by omega)]
      have fj : oddNumber (n1 + 1) (fun i => j.testBit (n1 + i)) = 1 + 2 ^ (n1 + 1) := by
        rw [oddNumber_succ, oddNumber_false n1 _ (fun i hi => by
          rw [hj _ (by omega), if_neg (by omega)]
          exact decide_eq_false (by omega))]
        rw [show j.testBit (n1 + n1) = true by rw [hj _ (by omega), if_neg (by omega)]; exact decide_eq_true rfl]
        rfl
      rw [ek, ej, fk, fj] at h
      have hp : (0 : ℝ) < oddNumber n1 bit := by
        have := (oddNumber_lt n1 bit).1.pos
        exact_mod_cast this
      have h2 : (0 : ℝ) < 2 ^ n1 := by positivity
      have hr : (num : ℝ) = oddNumber n1 bit * (1 + 2 ^ n1) := by
        push_cast [pow_succ] at h
        have hm : ((oddNumber n1 bit : ℝ) * 2 ^ n1) * (num - oddNumber n1 bit * (1 + 2 ^ n1)) = 0 := by nlinarith [h]
        rcases mul_eq_zero.1 hm with h0 | h0
        · exact absurd h0 (by positivity)
        · linarith
      exact_mod_cast hr
    have k0 := key (fun _ => false)
    rw [oddNumber_false _ _ (fun _ _ => rfl)] at k0
    rcases Nat.eq_zero_or_pos n1 with hz | hz
    · rw [hz] at k0; omega
    · have k1 := key (fun i => decide (i = 0))
      obtain ⟨m, rfl⟩ : ∃ m, n1 = m + 1 := ⟨n1 - 1, by omega⟩
      have : oddNumber (m + 1) (fun i => decide (i = 0)) = 3 := by
        rw [oddNumber, Finset.sum_range_succ', Finset.sum_eq_zero (fun i _ => by simp)]
        simp
      rw [this] at k1
      omega

/-- C88. For 2 the Hamiltonian is the constant 1. There are no qubits, and `bitseparator` fails on the only outcome. -/
theorem C88_two_refuted : ∃ e, factoringHamiltonian 2 = .ok (.expr e) ∧ (PVal.expr e).toExpr.simplify.nQubits = 0 ∧
    ∀ k, bitseparator 2 (bitsAt (List.range (PVal.expr e).toExpr.simplify.nQubits) k) = .error .assertionError := by
  obtain ⟨e, h1, h2⟩ := factoring_cost 2
  have hs : Nat.sqrt 2 = 1 := (Nat.eq_sqrt'.2 (by norm_num)).symm
  have hb1 : factoringBits1 2 = 0 := by rw [factoringBits1, hs]; decide
  have hb2 : factoringBits2 2 = 1 := by rw [factoringBits2, hs]; decide
  have hn : (PVal.expr e).toExpr.simplify.nQubits = 0 := by
    have : ∀ k : ℕ, ((2 : ℕ) - ((factorsOf 2 k).1 : ℝ) * (factorsOf 2 k).2) ^ 2 = 1 := by
      intro k
      simp only [factorsOf, oddPair, hb1, hb2, oddNumber, Finset.sum_range_zero, Finset.sum_range_one]
      split_ifs <;> norm_num
    have := (C85_qubits (.expr e) _ h2 0).2 (by intro j k _; rw [this, this])
    omega
  refine ⟨e, h1, hn, fun k => ?_⟩
  rw [hn]
  exact (C88_separator 2 k []).2 (by rw [hb1, hb2]; simp)

/-! ## Which factors can be found -/

/-- **C88.** The pairs that outcomes stand for are exactly the pairs of odd numbers with at most `n1_bits + 1` and `n2_bits + 1`
binary digits; the energy of an outcome is 0 exactly if its pair is a factorization. -/
theorem C88_pairs (num P Q : ℕ) : (∃ k < 2 ^ (factoringBits1 num + factoringBits2 num),
      oddPair (factoringBits1 num) (factoringBits2 num) k.testBit = (P, Q)) ↔
    Odd P ∧ Odd Q ∧ P < 2 ^ (factoringBits1 num + 1) ∧ Q < 2 ^ (factoringBits2 num + 1) := by
  constructor
  · rintro ⟨k, -, h⟩
    simp only [oddPair, Prod.mk.injEq] at h
    obtain ⟨rfl, rfl⟩ := h
    exact ⟨(oddNumber_lt _ _).1, (oddNumber_lt _ _).1, (oddNumber_lt _ _).2, (oddNumber_lt _ _).2⟩
  · rintro ⟨hP, hQ, hp, hq⟩
    obtain ⟨b, rfl⟩ := oddNumber_surj _ P hP hp
    obtain ⟨c, rfl⟩ := oddNumber_surj _ Q hQ hq
    obtain ⟨k, hk, hb⟩ := exists_code (fun i => if i < factoringBits1 num then b i else c (i - factoringBits1 num))
      (factoringBits1 num + factoringBits2 num)
    refine ⟨k, hk, ?_⟩
    have e1 : oddNumber (factoringBits1 num) k.testBit = oddNumber (factoringBits1 num) b :=
      oddNumber_congr fun i hi => by rw [hb i (by omega), if_pos hi]
    have e2 : oddNumber (factoringBits2 num) (fun i => k.testBit (factoringBits1 num + i)) = oddNumber (factoringBits2 num) c :=
      oddNumber_congr fun i hi => by rw [hb _ (by omega), if_neg (by omega), Nat.add_sub_cancel_left]
    rw [oddPair, e1, e2]

/-- **C88, partial.** An odd number that is a product of `P ≤ Q` with `Q < 2^(n2_bits + 1)` has an outcome with energy 0 that gives
these factors; the smaller factor is never too large. Missing: products in which the larger factor has more digits
(`C88_found_refuted`). -/
theorem C88_found_partial (num P Q : ℕ) (hodd : Odd num) (hPQ : P * Q = num) (hle : P ≤ Q) (hQ : Q < 2 ^ (factoringBits2 num + 1)) :
    ∃ k < 2 ^ (factoringBits1 num + factoringBits2 num),
      bitseparator num (bitsAt (List.range (factoringBits1 num + factoringBits2 num)) k) = .ok (P, Q) := by
  have ho := hPQ ▸ hodd
  rw [Nat.odd_mul] at ho
  have hP : P < 2 ^ (factoringBits1 num + 1) := by
    have h1 : P ≤ num.sqrt := by
      rw [Nat.le_sqrt, ← hPQ]
      exact Nat.mul_le_mul_left P hle
    have h2 := (C88_get_nbit num.sqrt).1
    have h3 : factoringBits1 num + 1 = getNbit num.sqrt := by rw [← bits12]; rfl
    rw [h3]
    refine lt_of_le_of_ne (h1.trans h2.2) ?_
    intro h
    have he : Even (2 ^ getNbit num.sqrt) := Nat.even_pow.2 ⟨even_two, by have := h2.1; omega⟩
    rw [← h] at he
    exact (Nat.not_even_iff_odd.2 ho.1) he
  obtain ⟨k, hk, h⟩ := (C88_pairs num P Q).2 ⟨ho.1, ho.2, hP, hQ⟩
  exact ⟨k, hk, by rw [(C88_separator num k []).1, h]⟩

/-- C88. `51 = 3 * 17` is not found: no outcome has energy 0. -/
theorem C88_found_refuted : 51 = 3 * 17 ∧ ∀ k : ℕ, let pq := oddPair (factoringBits1 51) (factoringBits2 51) k.testBit
    pq.1 * pq.2 ≠ 51 := by
  refine ⟨rfl, fun k => ?_⟩
  have hs : Nat.sqrt 51 = 7 := (Nat.eq_sqrt'.2 (by norm_num)).symm
  have hb1 : factoringBits1 51 = 2 := by rw [factoringBits1, hs]; decide
  have hb2 : factoringBits2 51 = 3 := by rw [factoringBits2, hs]; decide
  intro pq h
  have h1 := oddNumber_lt 2 k.testBit
  have h2 := oddNumber_lt 3 (fun i => k.testBit (2 + i))
  simp only [pq, oddPair, hb1, hb2] at h
  revert h h1 h2
  generalize oddNumber 2 k.testBit = p
  generalize oddNumber 3 (fun i => k.testBit (2 + i)) = q
  intro h1 h2 h
  have hp : p < 8 := h1.2
  have hq : q < 16 := h2.2
  clear h1 h2
  interval_cases p
  all_goals omega

/-- C88. Even numbers are never found. -/
theorem C88_even (num k : ℕ) (h : Even num) : let pq := oddPair (factoringBits1 num) (factoringBits2 num) k.testBit
    pq.1 * pq.2 ≠ num := by
  intro pq hpq
  have : Odd (pq.1 * pq.2) := Nat.odd_mul.2 ⟨(oddNumber_lt _ _).1, (oddNumber_lt _ _).1⟩
  rw [hpq] at this
  exact Nat.not_even_iff_odd.2 this h

/-! ## The run and the report -/

/-- C88. The main program prints the pairs of the outcomes in their order, up to the first factorization. -/
theorem C88_report (num : ℕ) (ks : List ℕ) :
    factoringReport num (ks.map (bitsAt (List.range (factoringBits1 num + factoringBits2 num)))) =
      .ok (untilProduct num (ks.map (fun k => oddPair (factoringBits1 num) (factoringBits2 num) k.testBit))) := by
  induction ks with
  | nil => rfl
  | cons k ks ih =>
    rw [List.map_cons, factoringReport, (C88_separator num k []).1, List.map_cons, untilProduct, ih]
    simp only
    split_ifs <;> rfl

/-- **C88.** Running the object of `factoring_qaoa` (without a sampler, for a number other than 2) minimizes the mean of
`(num - p*q)²` over the outcomes. The loop over `most_common(100)` does not fail and prints the pairs of the most likely
outcomes up to the first factorization; if the parameters of the result have mean energy 0, that is the very first pair. -/
theorem C88_run (jv : ℕ → ℂ) (ji : ℕ → ℕ) (b : B) (reg : Registry V M C) (h : List (Cmd V M C A)) (dflt : ℕ → Minimizer)
    (step num : ℕ) (minimizer : Option (ℕ → Minimizer)) (a : A) (v : VqeObj) (sep : List ℕ → Except PyErr (ℕ × ℕ)) (verbose : Bool)
    (rnd : ℕ → ℝ) (hnum : num ≠ 2)
    (hv : (factoringQaoa kit isAttr dflt step num minimizer none a ((World.start b reg).exec kit isAttr h)).2 = .ok (v, sep))
    (hm : HasDim (2 * step) ((minimizer.getD dflt) (2 * step))) :
    let n := factoringBits1 num + factoringBits2 num
    let pq := fun k : ℕ => oddPair (factoringBits1 num) (factoringBits2 num) k.testBit
    let d := fun k : ℕ => ((num : ℝ) - (pq k).1 * (pq k).2) ^ 2
    let ψ := qaoaState n step d
    let E := fun p => meanCost n d (ψ p)
    sep = bitseparator num ∧ ∃ out : VqeOutcome,
      (v.run jv ji verbose rnd).2 = .ok (out, rnd) ∧ out.params = answer E ((minimizer.getD dflt) (2 * step)) ∧
      (out.printed = if verbose then trace E ((minimizer.getD dflt) (2 * step)) else []) ∧
      ∀ (m : ℕ) rnd', ∃ r' ks, out.result.mostCommon m rnd' =
          (r', .ok (ks.map (fun k => (bitsAt (List.range n) k, ‖ψ out.params k‖ ^ 2)), rnd')) ∧
        MostLikely n (ψ out.params) m ks ∧
        factoringReport num (ks.map (bitsAt (List.range n))) = .ok (untilProduct num (ks.map pq)) ∧
        (E out.params = 0 → ∀ k ∈ ks, (pq k).1 * (pq k).2 = num) := by
  intro n pq d ψ E
  obtain ⟨e, he, hop⟩ := factoring_cost num
  have hq := C88_qubits num hnum e he
  simp only [factoringQaoa, he] at hv
  cases hx : vqeOfQaoa kit isAttr dflt (.expr e) step minimizer none a ((World.start b reg).exec kit isAttr h) with
  | mk w x =>
    rw [hx] at hv
    cases x with
    | error _ => simp at hv
    | ok v' =>
      simp only [Except.ok.injEq, Prod.mk.injEq] at hv
      obtain ⟨rfl, rfl⟩ := hv
      refine ⟨rfl, ?_⟩
      have hr := vqeOfQaoa_run kit isAttr jv ji b reg h dflt (.expr e) d step minimizer none a v' verbose rnd hop
        (by rw [hx]) hm (.inl rfl)
      rw [hq] at hr
      obtain ⟨out, e1, e2, e3, e4, -, e5⟩ := hr
      refine ⟨out, e1, e2, e3, fun m rnd' => ?_⟩
      obtain ⟨r', ks, f1, f2⟩ := e5 m rnd'
      refine ⟨r', ks, f1, f2, C88_report num ks, fun hE k hk => ?_⟩
      have hp : out.params.length = 2 * step := by rw [e2]; exact answer_dim _ _ _ hm
      have hk' := f2.possible k hk
      have := ((C85_bound n d 0 (fun k _ => (energy_zero num (pq k).1 (pq k).2).1) _ (e4 _ hp)).2.1 hE) k hk'.1 hk'.2
      exact (energy_zero num (pq k).1 (pq k).2).2.1 this

/-! ## Examples -/

/-- `33 = 3 * 11`, the number of the main program: 2 and 3 bits, 5 qubits, and the factors are found. -/
example : factoringBits1 33 = 2 ∧ factoringBits2 33 = 3 ∧ (∃ e, factoringHamiltonian 33 = .ok (.expr e) ∧
    (PVal.expr e).toExpr.simplify.nQubits = 5) ∧ ∃ k < 2 ^ 5, bitseparator 33 (bitsAt (List.range 5) k) = .ok (3, 11) := by
  have hs : Nat.sqrt 33 = 5 := (Nat.eq_sqrt'.2 (by norm_num)).symm
  have hb1 : factoringBits1 33 = 2 := by rw [factoringBits1, hs]; decide
  have hb2 : factoringBits2 33 = 3 := by rw [factoringBits2, hs]; decide
  refine ⟨hb1, hb2, ?_, ?_⟩
  · obtain ⟨e, he, -⟩ := C88_energy 33
    exact ⟨e, he, by rw [C88_qubits 33 (by norm_num) e he, hb1, hb2]⟩
  · have := C88_found_partial 33 3 11 (by decide) rfl (by norm_num) (by rw [hb2]; norm_num)
    rw [hb1, hb2] at this
    exact this

/-- The hypotheses of `C88_run` are met. -/
example (jv : ℕ → ℂ) (ji : ℕ → ℕ) (rnd : ℕ → ℝ) : ∃ v sep out,
    (factoringQaoa demoKit (fun _ => false) (fun _ => .ask [0, 0] fun e => .done [e, 1]) 1 33 none none () demoStart).2 = .ok (v, sep) ∧
    (v.run jv ji true rnd).2 = .ok (out, rnd) ∧ out.printed.length = 1 := by
  obtain ⟨e, h1, h2⟩ := C88_energy 33
  obtain ⟨q, hq⟩ := diag_demo (.expr e) _ h2 (.inr ⟨e, rfl⟩) 1
  have hv : ∃ v, (factoringQaoa demoKit (fun _ => false) (fun _ => .ask [0, 0] fun e => .done [e, 1]) 1 33 none none ()
      demoStart).2 = .ok v := by
    unfold factoringQaoa vqeOfQaoa
    rw [h1]
    simp only
    cases hx : QaoaAnsatz.new demoKit (fun _ => false) (.expr e) 1 none none () demoStart with
    | mk w x =>
      rw [hx] at hq
      simp only at hq
      subst hq
      exact ⟨_, rfl⟩
  obtain ⟨⟨v, sep⟩, hv⟩ := hv
  obtain ⟨-, out, k1, k2, k3, -⟩ := C88_run demoKit (fun _ => false) jv ji 0 demoReg [] (fun _ => .ask [0, 0] fun e => .done [e, 1]) 1
    33 none () v sep true rnd (by norm_num) hv ⟨rfl, fun _ => rfl⟩
  exact ⟨v, sep, out, hv, k1, by rw [k3]; rfl⟩

end

end Blueqat
