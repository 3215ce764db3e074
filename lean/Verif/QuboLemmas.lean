import Verif.Qubo
import Verif.Spec.Qubo
import Verif.PauliFormula
import Mathlib.Tactic.LinearCombination
import Mathlib.Tactic.Linarith
import Mathlib.Tactic.Abel
import Mathlib.Algebra.BigOperators.Ring.Finset

/-!
# Helper lemmas: QUBO matrices
-/

set_option linter.unusedSimpArgs false
set_option linter.unusedVariables false

namespace Blueqat

open Spec Finset

noncomputable section

/-! ## Loops -/

theorem foldlM_sum {σ α M : Type} [AddCommMonoid M] (f : σ → α → Except PyErr σ) (Inv : σ → Prop) (val : σ → M)
    (g : α → M) (l : List α)
    (h : ∀ x ∈ l, ∀ s, Inv s → ∃ s', f s x = .ok s' ∧ Inv s' ∧ val s' = val s + g x) (s : σ) (hs : Inv s) :
    ∃ s', l.foldlM f s = .ok s' ∧ Inv s' ∧ val s' = val s + (l.map g).sum := by
  induction l generalizing s with
  | nil => exact ⟨s, rfl, hs, by simp⟩
  | cons x l ih =>
    obtain ⟨s1, h1, h2, h3⟩ := h x (by simp) s hs
    obtain ⟨s2, h4, h5, h6⟩ := ih (fun y hy => h y (by simp [hy])) s1 h2
    refine ⟨s2, ?_, h5, ?_⟩
    · rw [List.foldlM_cons, h1]; exact h4
    · rw [h6, h3, List.map_cons, List.sum_cons, add_assoc]

theorem foldl_sum {α M : Type} [AddCommMonoid M] (g : α → M) (f : M → α → M) (hf : ∀ s x, f s x = s + g x)
    (l : List α) (s : M) : l.foldl f s = s + (l.map g).sum := by
  induction l generalizing s with
  | nil => simp
  | cons x l ih => rw [List.foldl_cons, ih, hf, List.map_cons, List.sum_cons, add_assoc]

theorem list_range_sum {M : Type} [AddCommMonoid M] (n : ℕ) (g : ℕ → M) :
    ((List.range n).map g).sum = ∑ i ∈ range n, g i := by
  induction n with
  | zero => simp
  | succ n ih => rw [List.range_succ, List.map_append, List.sum_append, ih, Finset.sum_range_succ]; simp

theorem list_range'_sum {M : Type} [AddCommMonoid M] (a n : ℕ) (g : ℕ → M) :
    ((List.range' a (n - a)).map g).sum = ∑ i ∈ range n, if a ≤ i then g i else 0 := by
  induction n with
  | zero => simp
  | succ n ih =>
    rw [Finset.sum_range_succ, ← ih]
    by_cases h : a ≤ n
    · rw [if_pos h, show n + 1 - a = (n - a) + 1 by omega, List.range'_concat, List.map_append, List.sum_append]
      simp [show a + (n - a) = n by omega]
    · rw [if_neg h, show n + 1 - a = 0 by omega, show n - a = 0 by omega]; simp

/-- Pairs split into the diagonal and the two triangles. -/
theorem sum_square (n : ℕ) (f : ℕ → ℕ → ℝ) : ∑ i ∈ range n, ∑ j ∈ range n, f i j =
    ∑ i ∈ range n, f i i + ∑ i ∈ range n, ∑ j ∈ range n, if i < j then f i j + f j i else 0 := by
  have h1 : ∀ i ∈ range n, ∀ j ∈ range n,
      f i j = (if i = j then f i j else 0) + ((if i < j then f i j else 0) + (if j < i then f i j else 0)) := by
    intro i _ j _
    rcases lt_trichotomy i j with h | h | h
    · simp [h, h.ne, h.le, not_lt.2 h.le]
    · simp [h]
    · simp [h, h.ne', not_lt.2 h.le]
  have h2 : ∑ i ∈ range n, ∑ j ∈ range n, (if i = j then f i j else 0) = ∑ i ∈ range n, f i i :=
    Finset.sum_congr rfl (fun i hi => by rw [Finset.sum_ite_eq]; simp [hi])
  have h3 : ∑ i ∈ range n, ∑ j ∈ range n, (if j < i then f i j else 0) =
      ∑ i ∈ range n, ∑ j ∈ range n, (if i < j then f j i else 0) := Finset.sum_comm
  rw [Finset.sum_congr rfl (fun i hi => Finset.sum_congr rfl (fun j hj => h1 i hi j hj))]
  simp only [Finset.sum_add_distrib]
  rw [h2, h3, ← Finset.sum_add_distrib]
  congr 1
  refine Finset.sum_congr rfl (fun i hi => ?_)
  rw [← Finset.sum_add_distrib]
  refine Finset.sum_congr rfl (fun j hj => ?_)
  split_ifs <;> simp

theorem quboRows_entry {q : Rows} {n : ℕ} (hn : ∀ r ∈ q, n ≤ r.length) {i j : ℕ} (hi : i < q.length) (hj : j < n) :
    q.entry i j = .ok (entryOf q i j) := by
  have h1 : q[i]? = some q[i] := List.getElem?_eq_getElem hi
  have h2 : j < q[i].length := lt_of_lt_of_le hj (hn _ (List.getElem_mem hi))
  have h3 : q[i][j]? = some q[i][j] := List.getElem?_eq_getElem h2
  simp [Rows.entry, h1, h3, List.getD, entryOf]

end

end Blueqat
