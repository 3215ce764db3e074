import Verif.QuboLemmas
import Mathlib.Algebra.BigOperators.GroupWithZero.Finset
import Mathlib.Algebra.Order.BigOperators.Ring.Finset

/-!
# Property C51: QUBO builders
-/

set_option linter.unusedSimpArgs false
set_option linter.unusedVariables false

namespace Blueqat

open Spec Finset

noncomputable section

theorem energy_split (n : ℕ) (Q : ℕ → ℕ → ℝ) (b : ℕ → ℝ) : quboEnergy n Q b =
    ∑ i ∈ range n, Q i i * b i * b i +
      ∑ i ∈ range n, ∑ j ∈ range n, if i < j then (Q i j + Q j i) * b i * b j else 0 := by
  rw [quboEnergy, sum_square]
  congr 1
  refine Finset.sum_congr rfl (fun i _ => Finset.sum_congr rfl (fun j _ => ?_))
  split_ifs
  · ring
  · rfl

theorem square_sum (n : ℕ) (f g : ℕ → ℝ) : (∑ i ∈ range n, f i) * (∑ i ∈ range n, g i) =
    ∑ i ∈ range n, f i * g i + ∑ i ∈ range n, ∑ j ∈ range n, if i < j then f i * g j + f j * g i else 0 := by
  rw [Finset.sum_mul_sum, sum_square]

theorem selCounts_ok (n : ℕ) (arr : List ℕ) (h : ∀ a ∈ arr, a < n) :
    ∃ m, selCounts n (arr.map (fun a : ℕ => (a : ℤ))) = .ok m ∧ ∀ k, m k = (arr.count k : ℝ) := by
  have key : ∀ (l : List ℕ), (∀ a ∈ l, a < n) → ∀ m0 : ℕ → ℝ, ∃ m,
      (l.map (fun a : ℕ => (a : ℤ))).foldlM (fun (m : ℕ → ℝ) a => do
        let i ← npIdx n a
        pure (fun k => if k = i then m k + 1 else m k)) m0 = .ok m ∧ ∀ k, m k = m0 k + (l.count k : ℝ) := by
    intro l
    induction l with
    | nil => intro _ m0; exact ⟨m0, rfl, by simp⟩
    | cons a l ih =>
      intro hl m0
      obtain ⟨m, h1, h2⟩ := ih (fun x hx => hl x (by simp [hx])) (fun k => if k = a then m0 k + 1 else m0 k)
      have ha : npIdx n (a : ℤ) = .ok a := by
        have := hl a (by simp)
        simp [npIdx, this]
      refine ⟨m, ?_, ?_⟩
      · rw [List.map_cons, List.foldlM_cons, ha]; exact h1
      · intro k
        rw [h2 k]
        by_cases hk : k = a
        · simp [hk]; ring
        · simp [hk, List.count_cons_of_ne (Ne.symm hk)]
  obtain ⟨m, h1, h2⟩ := key arr h (fun _ => 0)
  exact ⟨m, h1, by simpa using h2⟩

/-- C51. `sel(N, K, arr)` has energy `(Σb - K)² - K²`, minus one half for every mention in `arr` of a selected bit. -/
theorem C51_sel (n : ℕ) (k : ℝ) (arr : List ℕ) (h : ∀ a ∈ arr, a < n) :
    ∃ M, wqSel n k (arr.map (fun a : ℕ => (a : ℤ))) = .ok M ∧ M.rows = n ∧ M.cols = n ∧
      ∀ b, IsBits b → quboEnergy n M.ent b =
        (∑ i ∈ range n, b i - k) ^ 2 - k ^ 2 - 1 / 2 * (arr.map b).sum := by
  obtain ⟨m, h1, h2⟩ := selCounts_ok n arr h
  refine ⟨_, by simp only [wqSel, h1]; rfl, by simp [NpMat.add, npDiag], by simp [NpMat.add, npDiag], ?_⟩
  intro b hb
  have hbb : ∀ i, b i * b i = b i := by intro i; rcases hb i with h | h <;> simp [h]
  have hM : ∀ i j, i < n → j < n → ((npDiag (List.replicate n (1 - 2 * k))).add
      ((⟨n, n, fun _ _ => 2⟩ : NpMat).triu 1)).ent i j - 0.5 * (npDiag ((List.range n).map m)).ent i j =
      (if i = j then 1 - 2 * k - 1 / 2 * (arr.count i : ℝ) else 0) + if i < j then 2 else 0 := by
    intro i j hi hj
    by_cases hij : i = j
    · subst hij
      simp [NpMat.add, NpMat.triu, npDiag, List.getD, hi, h2]
      norm_num
    · simp [NpMat.add, NpMat.triu, npDiag, hij, Nat.succ_le_iff]
  have hc : ∀ l : List ℕ, (∀ a ∈ l, a < n) → (l.map b).sum = ∑ i ∈ range n, (l.count i : ℝ) * b i := by
    intro l
    induction l with
    | nil => simp
    | cons a l ih =>
      intro hl
      rw [List.map_cons, List.sum_cons, ih (fun x hx => hl x (by simp [hx]))]
      have e : ∀ i ∈ range n, (((a :: l).count i : ℕ) : ℝ) * b i = (if a = i then b i else 0) + (l.count i : ℝ) * b i := by
        intro i _
        by_cases hai : a = i
        · simp [hai]; ring
        · simp [hai, List.count_cons_of_ne hai]
      rw [Finset.sum_congr rfl e, Finset.sum_add_distrib, Finset.sum_ite_eq]
      simp [hl a (by simp)]
  have e0 : quboEnergy n (fun i j => ((npDiag (List.replicate n (1 - 2 * k))).add
      ((⟨n, n, fun _ _ => 2⟩ : NpMat).triu 1)).ent i j - 0.5 * (npDiag ((List.range n).map m)).ent i j) b =
      ∑ i ∈ range n, ∑ j ∈ range n, ((if i = j then 1 - 2 * k - 1 / 2 * (arr.count i : ℝ) else 0) +
        if i < j then 2 else 0) * b i * b j := by
    rw [quboEnergy]
    refine Finset.sum_congr rfl (fun i hi => Finset.sum_congr rfl (fun j hj => ?_))
    rw [hM i j (by simpa using hi) (by simpa using hj)]
  refine e0.trans ?_
  rw [sum_square, sub_sq, sq (∑ i ∈ range n, b i), square_sum n b b, hc arr h]
  have e1 : ∑ i ∈ range n, ((if i = i then 1 - 2 * k - 1 / 2 * (arr.count i : ℝ) else 0) + if i < i then 2 else 0) * b i * b i =
      ∑ i ∈ range n, b i * b i - 2 * (∑ i ∈ range n, b i) * k - 1 / 2 * ∑ i ∈ range n, (arr.count i : ℝ) * b i := by
    rw [mul_assoc, Finset.sum_mul, Finset.mul_sum, Finset.mul_sum, ← Finset.sum_sub_distrib, ← Finset.sum_sub_distrib]
    refine Finset.sum_congr rfl (fun i _ => ?_)
    simp only [if_true, lt_irrefl, if_false, add_zero]
    rw [mul_assoc, hbb]; ring
  have e2 : ∑ i ∈ range n, ∑ j ∈ range n, (if i < j then
      ((if i = j then 1 - 2 * k - 1 / 2 * (arr.count i : ℝ) else 0) + if i < j then 2 else 0) * b i * b j +
      ((if j = i then 1 - 2 * k - 1 / 2 * (arr.count j : ℝ) else 0) + if j < i then 2 else 0) * b j * b i else 0) =
      ∑ i ∈ range n, ∑ j ∈ range n, if i < j then b i * b j + b j * b i else 0 := by
    refine Finset.sum_congr rfl (fun i _ => Finset.sum_congr rfl (fun j _ => ?_))
    by_cases h : i < j
    · simp [h, h.ne, h.ne', not_lt.2 h.le]; ring
    · simp [h]
  rw [e1, e2]; ring

/-- C51. `sel(N, K)` is minimal exactly at the assignments with `K` ones. -/
theorem C51_sel_minimal (n k : ℕ) (hk : k ≤ n) : ∃ M, wqSel n k [] = .ok M ∧
    (∃ b, IsBits b ∧ quboEnergy n M.ent b = -(k : ℝ) ^ 2) ∧
    ∀ b, IsBits b → -(k : ℝ) ^ 2 ≤ quboEnergy n M.ent b ∧
      (quboEnergy n M.ent b = -(k : ℝ) ^ 2 ↔ ((range n).filter (fun i => b i = 1)).card = k) := by
  obtain ⟨M, h1, -, -, h2⟩ := C51_sel n k [] (by simp)
  have hcard : ∀ b, IsBits b → ∑ i ∈ range n, b i = (((range n).filter (fun i => b i = 1)).card : ℝ) := by
    intro b hb
    rw [Finset.card_filter]
    push_cast
    refine Finset.sum_congr rfl (fun i _ => ?_)
    rcases hb i with h | h <;> simp [h]
  refine ⟨M, by simpa using h1, ?_, ?_⟩
  · have hb : IsBits (fun i => if i < k then (1 : ℝ) else 0) := by intro i; dsimp only; split_ifs <;> simp
    refine ⟨fun i => if i < k then 1 else 0, hb, ?_⟩
    rw [h2 _ hb, hcard _ hb]
    have : (range n).filter (fun i => (if i < k then (1 : ℝ) else 0) = 1) = range k := by
      ext i
      simp only [Finset.mem_filter, Finset.mem_range, ite_eq_left_iff, zero_ne_one, imp_false, not_not]
      omega
    rw [this]; simp
  · intro b hb
    rw [h2 b hb, hcard b hb]
    simp only [List.map_nil, List.sum_nil, mul_zero, sub_zero]
    constructor
    · nlinarith [sq_nonneg ((((range n).filter (fun i => b i = 1)).card : ℝ) - k)]
    · constructor
      · intro h
        have h3 : ((((range n).filter (fun i => b i = 1)).card : ℝ) - k) ^ 2 = 0 := by linarith
        have h4 := pow_eq_zero_iff (two_ne_zero) |>.1 h3
        exact_mod_cast sub_eq_zero.1 h4
      · intro h; rw [h]; ring

/-- C51. An index outside the register is rejected. -/
theorem C51_sel_index_error (n : ℕ) (k : ℝ) (pre : List ℕ) (hp : ∀ a ∈ pre, a < n) (a : ℤ) (post : List ℤ)
    (ha : (n : ℤ) ≤ a ∨ a < -n) : wqSel n k (pre.map (fun a : ℕ => (a : ℤ)) ++ a :: post) = .error .indexError := by
  obtain ⟨m, h1, -⟩ := selCounts_ok n pre hp
  have h2 : npIdx n a = .error .indexError := by
    rw [npIdx, if_neg (by omega), if_neg (by omega)]
  have : selCounts n (pre.map (fun a : ℕ => (a : ℤ)) ++ a :: post) = .error .indexError := by
    rw [selCounts] at h1 ⊢
    rw [List.foldlM_append, h1]
    simp only [bind, Except.bind]
    rw [List.foldlM_cons, h2]; rfl
  simp only [wqSel, this]; rfl

example : ∃ M, wqSel 5 2 [] = .ok M ∧ quboEnergy 5 M.ent (fun i => if i < 2 then 1 else 0) = -4 := by
  obtain ⟨M, h1, -, -, h2⟩ := C51_sel 5 2 [] (by simp)
  refine ⟨M, by simpa using h1, ?_⟩
  rw [h2 _ (by intro i; dsimp only; split_ifs <;> simp)]
  simp only [Finset.sum_range_succ, Finset.sum_range_zero]
  norm_num

/-- C51. `sqr(a)` has energy `(a·x)²`. -/
theorem C51_sqr (a : List ℝ) (b : ℕ → ℝ) :
    (wqSqr a).rows = a.length ∧ (wqSqr a).cols = a.length ∧
    quboEnergy a.length (wqSqr a).ent b = (∑ i ∈ range a.length, a.getD i 0 * b i) ^ 2 := by
  refine ⟨rfl, rfl, ?_⟩
  rw [sq, square_sum, energy_split]
  congr 1
  · refine Finset.sum_congr rfl (fun i _ => ?_)
    simp [wqSqr, NpMat.add, NpMat.triu, npOuter]; ring
  · refine Finset.sum_congr rfl (fun i _ => Finset.sum_congr rfl (fun j _ => ?_))
    by_cases h : i < j
    · simp [wqSqr, NpMat.add, NpMat.triu, npOuter, h, h.le, Nat.succ_le_iff, not_le.2 h, not_lt.2 h.le]; ring
    · simp [h]

example : quboEnergy 2 (wqSqr [3, 4]).ent (fun _ => 1) = 49 := by
  refine (C51_sqr [3, 4] (fun _ => 1)).2.2.trans ?_
  norm_num [Finset.sum_range_succ]

/-- C51, partial: `mul(a, b)` has energy `(a·x)(b·x)` if `a_i b_j = a_j b_i` for all `i`, `j`. Missing: all other vectors,
for which it is false (`C51_mul_refuted`); `C51_mul_energy` gives the energy of the matrix. -/
theorem C51_mul_partial (a c : List ℝ) (hl : a.length = c.length)
    (h : ∀ i j, i < a.length → j < a.length → a.getD i 0 * c.getD j 0 = a.getD j 0 * c.getD i 0) (b : ℕ → ℝ) :
    quboEnergy a.length (wqMul a c).ent b =
      (∑ i ∈ range a.length, a.getD i 0 * b i) * ∑ i ∈ range a.length, c.getD i 0 * b i := by
  rw [square_sum, energy_split]
  congr 1
  · refine Finset.sum_congr rfl (fun i _ => ?_)
    simp [wqMul, NpMat.add, NpMat.triu, npOuter]; ring
  · refine Finset.sum_congr rfl (fun i hi => Finset.sum_congr rfl (fun j hj => ?_))
    by_cases hij : i < j
    · have := h i j (by simpa using hi) (by simpa using hj)
      simp only [List.getD_eq_getElem?_getD] at this
      simp [wqMul, NpMat.add, NpMat.triu, npOuter, hij, hij.le, Nat.succ_le_iff, not_le.2 hij, not_lt.2 hij.le]
      linear_combination (b i * b j) * this
    · simp [hij]

/-- C51. The energy of `mul(a, c)` counts the products above the diagonal twice and those below not at all. -/
theorem C51_mul_energy (a c : List ℝ) (hl : a.length = c.length) (b : ℕ → ℝ) :
    quboEnergy a.length (wqMul a c).ent b = ∑ i ∈ range a.length, (a.getD i 0 * b i) * (c.getD i 0 * b i) +
      ∑ i ∈ range a.length, ∑ j ∈ range a.length,
        if i < j then 2 * (a.getD i 0 * b i) * (c.getD j 0 * b j) else 0 := by
  rw [energy_split]
  congr 1
  · refine Finset.sum_congr rfl (fun i _ => ?_)
    simp [wqMul, NpMat.add, NpMat.triu, npOuter]; ring
  · refine Finset.sum_congr rfl (fun i hi => Finset.sum_congr rfl (fun j hj => ?_))
    by_cases hij : i < j
    · simp [wqMul, NpMat.add, NpMat.triu, npOuter, hij, hij.le, Nat.succ_le_iff, not_le.2 hij, not_lt.2 hij.le]
      ring
    · simp [hij]

theorem pair_sum (n : ℕ) (g : ℕ → ℕ → ℝ) (p q : ℕ) (hq : q < n) (hpq : p < q) (x : ℕ → ℝ) (hx : ∀ k, x k = if k = p ∨ k = q then 1 else 0)
    (hg : ∀ i j, x i = 0 ∨ x j = 0 → g i j = 0) :
    (∑ i ∈ range n, ∑ j ∈ range n, if i < j then g i j else 0) = g p q := by
  rw [Finset.sum_eq_single p, Finset.sum_eq_single q]
  · rw [if_pos hpq]
  · intro j _ hne
    by_cases hjp : j = p
    · subst hjp; simp
    · rw [hg p j (.inr (by rw [hx, if_neg (by tauto)])), ite_self]
  · intro h; exact absurd (Finset.mem_range.2 hq) h
  · intro i _ hne
    refine Finset.sum_eq_zero fun j _ => ?_
    by_cases hiq : i = q
    · subst hiq
      split_ifs with hlt
      · exact hg i j (.inr (by rw [hx, if_neg (by omega)]))
      · rfl
    · rw [hg i j (.inl (by rw [hx, if_neg (by tauto)])), ite_self]
  · intro h; exact absurd (Finset.mem_range.2 (by omega)) h

/-- C51, `mul` exactly: the energy is `(a·x)(b·x)` for all bits if and only if `a_i b_j = a_j b_i` for all `i`, `j`. -/
theorem C51_mul_exact (a c : List ℝ) (hl : a.length = c.length) :
    (∀ b, IsBits b → quboEnergy a.length (wqMul a c).ent b =
      (∑ i ∈ range a.length, a.getD i 0 * b i) * ∑ i ∈ range a.length, c.getD i 0 * b i) ↔
    ∀ i j, i < a.length → j < a.length → a.getD i 0 * c.getD j 0 = a.getD j 0 * c.getD i 0 := by
  refine ⟨fun h => ?_, fun h b _ => C51_mul_partial a c hl h b⟩
  have key : ∀ p q, p < q → q < a.length → a.getD p 0 * c.getD q 0 = a.getD q 0 * c.getD p 0 := by
    intro p q hpq hq
    let x : ℕ → ℝ := fun k => if k = p ∨ k = q then 1 else 0
    have h1 := h x (fun k => by by_cases hk : k = p ∨ k = q <;> simp [x, hk])
    rw [C51_mul_energy a c hl, square_sum] at h1
    have h2 := add_left_cancel h1
    rw [pair_sum a.length (fun i j => 2 * (a.getD i 0 * x i) * (c.getD j 0 * x j)) p q hq hpq x (fun _ => rfl)
        (by rintro i j (h0 | h0) <;> simp [h0]),
      pair_sum a.length (fun i j => a.getD i 0 * x i * (c.getD j 0 * x j) + a.getD j 0 * x j * (c.getD i 0 * x i)) p q hq hpq x
        (fun _ => rfl) (by rintro i j (h0 | h0) <;> simp [h0])] at h2
    have hp : x p = 1 := by simp [x]
    have hq' : x q = 1 := by simp [x]
    simp only [hp, hq', mul_one] at h2
    linarith
  intro i j hi hj
  rcases lt_trichotomy i j with hij | hij | hij
  · exact key i j hij hj
  · rw [hij]
  · exact (key j i hij hi).symm

/-- Both sides occur: the vectors (1, 2) and (3, 6), and (1, 0) and (0, 1). -/
example : (∀ i j, i < 2 → j < 2 → [1, 2].getD i (0 : ℝ) * [3, 6].getD j 0 = [1, 2].getD j 0 * [3, 6].getD i 0) ∧
    ¬∀ i j, i < 2 → j < 2 → [1, 0].getD i (0 : ℝ) * [0, 1].getD j 0 = [1, 0].getD j 0 * [0, 1].getD i 0 := by
  constructor
  · intro i j hi hj
    rcases (show i = 0 ∨ i = 1 by omega) with rfl | rfl <;> rcases (show j = 0 ∨ j = 1 by omega) with rfl | rfl <;> norm_num
  · intro h
    have := h 0 1 (by norm_num) (by norm_num)
    norm_num at this

/-- C51 is false of the code for `mul`: `mul([1, 0], [0, 1])` has energy 2 at (1, 1), where `(a·x)(b·x)` is 1. -/
theorem C51_mul_refuted : ∃ (a c : List ℝ) (b : ℕ → ℝ), a.length = c.length ∧ IsBits b ∧
    quboEnergy a.length (wqMul a c).ent b ≠
      (∑ i ∈ range a.length, a.getD i 0 * b i) * ∑ i ∈ range a.length, c.getD i 0 * b i := by
  refine ⟨[1, 0], [0, 1], fun _ => 1, rfl, fun _ => .inr rfl, ?_⟩
  norm_num [quboEnergy, Finset.sum_range_succ, wqMul, NpMat.add, NpMat.triu, npOuter]

/-- C51. `diag(d)` is linear: its energy is `Σ d_i b_i`. -/
theorem C51_diag (d : List ℝ) (b : ℕ → ℝ) (hb : IsBits b) :
    quboEnergy d.length (wqDiag d).ent b = ∑ i ∈ range d.length, d.getD i 0 * b i := by
  rw [energy_split]
  have e : ∑ i ∈ range d.length, ∑ j ∈ range d.length,
      (if i < j then ((wqDiag d).ent i j + (wqDiag d).ent j i) * b i * b j else 0) = 0 := by
    refine Finset.sum_eq_zero (fun i _ => Finset.sum_eq_zero (fun j _ => ?_))
    by_cases h : i < j
    · simp [wqDiag, npDiag, h, h.ne, h.ne']
    · simp [h]
  rw [e, add_zero]
  refine Finset.sum_congr rfl (fun i _ => ?_)
  rcases hb i with h | h <;> simp [h, wqDiag, npDiag]

/-- C51. `zeros(n)` has energy 0. -/
theorem C51_zeros (n : ℕ) (b : ℕ → ℝ) : quboEnergy n (wqZeros n).ent b = 0 := by
  simp [quboEnergy, wqZeros, npZeros]

theorem wqNet_ok (n : ℕ) : ∀ (edges : List (ℕ × ℕ)) (m : NpMat), (∀ e ∈ edges, e.1 < n ∧ e.2 < n) →
    ∃ M, (edges.map (fun e : ℕ × ℕ => ((e.1 : ℤ), (e.2 : ℤ)))).foldlM (fun (m : NpMat) e => do
      let i ← npIdx n (min e.1 e.2)
      let j ← npIdx n (max e.1 e.2)
      pure (m.put i j 1)) m = .ok M ∧ M.rows = m.rows ∧ M.cols = m.cols ∧
    ∀ i j, M.ent i j = if (i, j) ∈ edges.map (fun e => (min e.1 e.2, max e.1 e.2)) then 1 else m.ent i j
  | [], m, _ => ⟨m, rfl, rfl, rfl, by simp⟩
  | e :: es, m, h => by
    obtain ⟨M, h1, h2, h3, h4⟩ := wqNet_ok n es (m.put (min e.1 e.2) (max e.1 e.2) 1) (fun x hx => h x (by simp [hx]))
    have he := h e (by simp)
    have i1 : npIdx n (min (e.1 : ℤ) e.2) = .ok (min e.1 e.2) := by
      rw [npIdx, if_pos (by omega)]; congr 1; omega
    have i2 : npIdx n (max (e.1 : ℤ) e.2) = .ok (max e.1 e.2) := by
      rw [npIdx, if_pos (by omega)]; congr 1; omega
    refine ⟨M, ?_, h2, h3, ?_⟩
    · rw [List.map_cons, List.foldlM_cons]
      simp only [i1, i2, bind, Except.bind] at h1 ⊢
      exact h1
    · intro i j
      rw [h4]
      by_cases hm : (i, j) ∈ es.map (fun e => (min e.1 e.2, max e.1 e.2))
      · rw [if_pos hm, if_pos (by simp only [List.map_cons, List.mem_cons]; exact .inr hm)]
      · rw [if_neg hm]
        by_cases hh : i = min e.1 e.2 ∧ j = max e.1 e.2
        · rw [if_pos (by simp [hh.1, hh.2])]
          simp [NpMat.put, hh.1, hh.2]
        · rw [if_neg]
          · simp [NpMat.put, hh]
          · simp only [List.map_cons, List.mem_cons, not_or]
            exact ⟨fun h => hh (by simpa using h), hm⟩

/-- C51. `net(edges, n)` has as energy the number of distinct undirected edges whose two ends are selected. -/
theorem C51_net (n : ℕ) (edges : List (ℕ × ℕ)) (h : ∀ e ∈ edges, e.1 < n ∧ e.2 < n) :
    ∃ M, wqNet (edges.map (fun e : ℕ × ℕ => ((e.1 : ℤ), (e.2 : ℤ)))) n = .ok M ∧ M.rows = n ∧ M.cols = n ∧
      ∀ b, IsBits b → quboEnergy n M.ent b =
        (((edges.map (fun e => (min e.1 e.2, max e.1 e.2))).toFinset.filter
          (fun e => b e.1 = 1 ∧ b e.2 = 1)).card : ℝ) := by
  obtain ⟨M, h1, h2, h3, h4⟩ := wqNet_ok n edges (npZeros n) h
  refine ⟨M, h1, h2, h3, ?_⟩
  intro b hb
  rw [quboEnergy, ← Finset.sum_product', Finset.card_eq_sum_ones, Nat.cast_sum]
  set S := (edges.map (fun e => (min e.1 e.2, max e.1 e.2))).toFinset.filter (fun e => b e.1 = 1 ∧ b e.2 = 1) with hS
  have hsub : S ⊆ range n ×ˢ range n := by
    intro p hp
    simp only [hS, Finset.mem_filter, List.mem_toFinset, List.mem_map] at hp
    obtain ⟨⟨e, he, rfl⟩, -⟩ := hp
    have := h e he
    simp only [Finset.mem_product, Finset.mem_range]; omega
  rw [← Finset.sum_subset hsub]
  · refine Finset.sum_congr rfl (fun p hp => ?_)
    simp only [hS, Finset.mem_filter, List.mem_toFinset] at hp
    rw [h4, if_pos hp.1, hp.2.1, hp.2.2]; simp
  · intro p _ hp
    simp only [hS, Finset.mem_filter, List.mem_toFinset, not_and] at hp
    rw [h4]
    by_cases hm : (p.1, p.2) ∈ edges.map (fun e => (min e.1 e.2, max e.1 e.2))
    · have := hp hm
      rcases hb p.1 with h0 | h0
      · rw [h0]; ring
      · rcases hb p.2 with h5 | h5
        · rw [h5]; ring
        · exact absurd h5 (this h0)
    · rw [if_neg hm]; simp [npZeros]

example : ∃ M, wqNet [(0, 1), (2, 1), (1, 0)] 4 = .ok M ∧
    quboEnergy 4 M.ent (fun i => if i < 3 then 1 else 0) = 2 := by
  obtain ⟨M, h1, -, -, h2⟩ := C51_net 4 [(0, 1), (2, 1), (1, 0)] (by simp)
  refine ⟨M, by simpa using h1, ?_⟩
  rw [h2 _ (by intro i; dsimp only; split_ifs <;> simp)]
  have : ([(0, 1), (2, 1), (1, 0)].map (fun e : ℕ × ℕ => (min e.1 e.2, max e.1 e.2))).toFinset.filter
      (fun e => (if e.1 < 3 then (1 : ℝ) else 0) = 1 ∧ (if e.2 < 3 then (1 : ℝ) else 0) = 1) = {(0, 1), (1, 2)} := by
    simp [Finset.filter_insert, Finset.filter_singleton]
    ext p; simp; tauto
  rw [this]; norm_num

/-! ## Negative indices -/

theorem npIdx_pyIndex (n : ℕ) (a : ℤ) (h : -(n : ℤ) ≤ a ∧ a < n) : npIdx n a = .ok (pyIndex n a).toNat := by
  rw [npIdx, pyIndex]
  by_cases h0 : a < 0
  · rw [if_neg (by omega), if_pos ⟨h.1, h0⟩, if_pos h0]
  · rw [if_pos (by omega), if_neg h0]

/-- C51. `sel` counts negative indices from the end. -/
theorem C51_sel_negative (n : ℕ) (k : ℝ) (arr : List ℤ) (h : ∀ a ∈ arr, -(n : ℤ) ≤ a ∧ a < n) :
    wqSel n k arr = wqSel n k (arr.map fun a : ℤ => if a < 0 then a + (n : ℤ) else a) := by
  have key : ∀ (l : List ℤ), (∀ a ∈ l, -(n : ℤ) ≤ a ∧ a < n) → ∀ m0 : ℕ → ℝ,
      l.foldlM (fun (m : ℕ → ℝ) a => do
        let i ← npIdx n a
        pure (f := Except PyErr) (fun k => if k = i then m k + 1 else m k)) m0 =
      (l.map fun a : ℤ => if a < 0 then a + (n : ℤ) else a).foldlM (fun (m : ℕ → ℝ) a => do
        let i ← npIdx n a
        pure (fun k => if k = i then m k + 1 else m k)) m0 := by
    intro l
    induction l with
    | nil => intro _ m0; rfl
    | cons a l ih =>
      intro hl m0
      have ha := hl a (by simp)
      have e : npIdx n a = npIdx n (if a < 0 then a + n else a) := by
        rw [npIdx_pyIndex n a ha, npIdx_pyIndex n _ (by split_ifs <;> omega)]
        congr 2
        simp only [pyIndex]
        split_ifs <;> omega
      rw [List.map_cons, List.foldlM_cons, List.foldlM_cons, ← e, npIdx_pyIndex n a ha]
      exact ih (fun x hx => hl x (by simp [hx])) _
  have : selCounts n arr = selCounts n (arr.map fun a : ℤ => if a < 0 then a + (n : ℤ) else a) := key arr h _
  simp only [wqSel, this]

/-- C51. `net` compares the two ends of an edge before negative indices are resolved: exactly the entries at
(resolved smaller end, resolved larger end) are 1. -/
theorem C51_net_entries (n : ℕ) (edges : List (ℤ × ℤ))
    (h : ∀ e ∈ edges, (-(n : ℤ) ≤ e.1 ∧ e.1 < n) ∧ -(n : ℤ) ≤ e.2 ∧ e.2 < n) :
    ∃ M, wqNet edges n = .ok M ∧ M.rows = n ∧ M.cols = n ∧ ∀ i j, M.ent i j =
      open Classical in if ∃ e ∈ edges, pyIndex n (min e.1 e.2) = i ∧ pyIndex n (max e.1 e.2) = j then 1 else 0 := by
  have key : ∀ (l : List (ℤ × ℤ)), (∀ e ∈ l, (-(n : ℤ) ≤ e.1 ∧ e.1 < n) ∧ -(n : ℤ) ≤ e.2 ∧ e.2 < n) → ∀ m : NpMat,
      ∃ M, l.foldlM (fun (m : NpMat) e => do
        let i ← npIdx n (min e.1 e.2)
        let j ← npIdx n (max e.1 e.2)
        pure (m.put i j 1)) m = .ok M ∧ M.rows = m.rows ∧ M.cols = m.cols ∧ ∀ i j : ℕ, M.ent i j =
        open Classical in if ∃ e ∈ l, pyIndex n (min e.1 e.2) = i ∧ pyIndex n (max e.1 e.2) = j then 1 else m.ent i j := by
    intro l
    induction l with
    | nil => intro _ m; exact ⟨m, rfl, rfl, rfl, by simp⟩
    | cons e l ih =>
      intro hl m
      have he := hl e (by simp)
      have h1 := npIdx_pyIndex n (min e.1 e.2) (by omega)
      have h2 := npIdx_pyIndex n (max e.1 e.2) (by omega)
      obtain ⟨M, h3, h4, h5, h6⟩ := ih (fun x hx => hl x (by simp [hx]))
        (m.put (pyIndex n (min e.1 e.2)).toNat (pyIndex n (max e.1 e.2)).toNat 1)
      refine ⟨M, ?_, h4, h5, ?_⟩
      · rw [List.foldlM_cons]
        simp only [h1, h2, bind, Except.bind] at h3 ⊢
        exact h3
      · intro i j
        rw [h6]
        have p1 : 0 ≤ pyIndex n (min e.1 e.2) := by simp only [pyIndex]; split_ifs <;> omega
        have p2 : 0 ≤ pyIndex n (max e.1 e.2) := by simp only [pyIndex]; split_ifs <;> omega
        by_cases hm : ∃ e ∈ l, pyIndex n (min e.1 e.2) = i ∧ pyIndex n (max e.1 e.2) = j
        · obtain ⟨e', he', hh⟩ := hm
          rw [if_pos ⟨e', he', hh⟩, if_pos ⟨e', by simp [he'], hh⟩]
        · rw [if_neg hm]
          by_cases hh : pyIndex n (min e.1 e.2) = i ∧ pyIndex n (max e.1 e.2) = j
          · rw [if_pos ⟨e, by simp, hh⟩]
            simp [NpMat.put, hh.1, hh.2]
          · rw [if_neg]
            · simp only [NpMat.put]
              rw [if_neg]
              rintro ⟨rfl, rfl⟩
              exact hh ⟨by omega, by omega⟩
            · rintro ⟨e', he', hh'⟩
              rcases List.mem_cons.1 he' with rfl | he'
              · exact hh hh'
              · exact hm ⟨e', he', hh'⟩
  obtain ⟨M, h1, h2, h3, h4⟩ := key edges h (npZeros n)
  exact ⟨M, h1, h2, h3, h4⟩

/-- C51, violated with negative indices: the edge between the last and the first of three vertices, written `[-1, 0]`, is put
below the diagonal, where the optimizer does not look. -/
theorem C51_net_refuted : ∃ M, wqNet [(-1, 0)] 3 = .ok M ∧
    (∀ b, upperEnergy 3 M.ent b = 0) ∧ quboEnergy 3 M.ent (fun _ => 1) = 1 := by
  obtain ⟨M, h1, -, -, h4⟩ := C51_net_entries 3 [(-1, 0)] (by simp)
  have h5 : ∀ i j, M.ent i j = if i = 2 ∧ j = 0 then 1 else 0 := by
    intro i j
    rw [h4]
    have : (∃ e ∈ [((-1 : ℤ), (0 : ℤ))], pyIndex (3 : ℕ) (min e.1 e.2) = i ∧ pyIndex (3 : ℕ) (max e.1 e.2) = j) ↔ i = 2 ∧ j = 0 := by
      simp [pyIndex]
      omega
    by_cases hh : i = 2 ∧ j = 0
    · rw [if_pos hh, if_pos (this.2 hh)]
    · rw [if_neg hh, if_neg (mt this.1 hh)]
  refine ⟨M, h1, fun b => ?_, ?_⟩
  · simp only [upperEnergy, h5]
    refine Finset.sum_eq_zero fun i _ => Finset.sum_eq_zero fun j _ => ?_
    split_ifs
    · omega
    · ring
    · rfl
  · simp [quboEnergy, h5, Finset.sum_range_succ]

/-- The hypotheses of `C51_sel_negative` hold with the smallest index. -/
example (k : ℝ) : wqSel 3 k [-3, -1, 2] = wqSel 3 k [0, 2, 2] := by
  rw [C51_sel_negative 3 k [-3, -1, 2] (by simp)]
  simp

end

end Blueqat
