import Verif.PauliMatrixLemmas
import Verif.PauliIndep

/-!
# Lemmas for `to_matrix`: the operators and the compressed matrices
-/

set_option linter.unusedSimpArgs false
set_option linter.unusedVariables false

namespace Blueqat

open Spec

noncomputable section

/-- The bits a letter inverts. -/
def opXor (o : POp) : ℕ := if o.p = .X ∨ o.p = .Y then 2 ^ o.n else 0

theorem opOp_apply (o : POp) (ψ : Vec) (i : ℕ) :
    opOp o ψ i = phase true (some o.p) (i.testBit o.n) * ψ (i ^^^ opXor o) := by
  obtain ⟨p, n⟩ := o
  show app (letterM p) n ψ i = _
  cases p <;> cases h : i.testBit n <;> simp [app, letterM, mX, mY, mZ, phase, opXor, flipBit, h]

theorem xorBits_snoc (w : List POp) (o : POp) : xorBits (w ++ [o]) = xorBits w + opXor o := by
  simp only [xorBits, opXor, List.filter_append, List.map_append, List.sum_append, List.filter_cons, List.filter_nil,
    Nat.one_shiftLeft]
  split_ifs <;> simp_all

theorem xorBits_lt (w : List POp) (hw : NormalWord w) (n : ℕ) (h : ∀ o ∈ w, o.n < n) : xorBits w < 2 ^ n := by
  induction w using List.reverseRecOn generalizing n with
  | nil => simp [xorBits]
  | append_singleton w o ih =>
    have hw' := List.pairwise_append.1 hw
    have h1 := ih hw'.1 o.n (fun x hx => hw'.2.2 x hx o (by simp))
    have h2 : o.n < n := h o (by simp)
    rw [xorBits_snoc]
    have h3 : opXor o ≤ 2 ^ o.n := by rw [opXor]; split_ifs <;> simp
    have h4 : 2 ^ o.n * 2 ≤ 2 ^ n := by
      rw [← pow_succ]; exact Nat.pow_le_pow_right (by omega) (by omega)
    omega

theorem add_two_pow_xor {s n : ℕ} (h : s < 2 ^ n) : s + 2 ^ n = s ^^^ 2 ^ n := by
  apply Nat.eq_of_testBit_eq
  intro k
  rw [add_comm, Nat.testBit_xor, Nat.testBit_two_pow]
  rcases lt_trichotomy k n with hk | rfl | hk
  · rw [Nat.testBit_two_pow_add_gt hk]; simp [hk.ne']
  · rw [Nat.testBit_two_pow_add_eq, Nat.testBit_lt_two_pow h]; simp
  · have h2 : 2 ^ n * 2 ≤ 2 ^ k := by
      rw [← pow_succ]; exact Nat.pow_le_pow_right (by omega) (by omega)
    rw [Nat.testBit_lt_two_pow (show 2 ^ n + s < 2 ^ k by omega), Nat.testBit_lt_two_pow (show s < 2 ^ k by omega)]
    simp [hk.ne]

theorem xorBits_snoc_xor (w : List POp) (o : POp) (hw : NormalWord (w ++ [o])) :
    xorBits (w ++ [o]) = xorBits w ^^^ opXor o := by
  rw [xorBits_snoc]
  have hw' := List.pairwise_append.1 hw
  have h1 := xorBits_lt w hw'.1 o.n (fun x hx => hw'.2.2 x hx o (by simp))
  rw [opXor]
  split_ifs
  · exact add_two_pow_xor h1
  · simp

theorem wordPhase_snoc (rm : Bool) (w : List POp) (o : POp) (j : ℕ) :
    wordPhase rm (w ++ [o]) j = wordPhase rm w j * phase rm (some o.p) (j.testBit o.n) := by
  simp [wordPhase]

/-- A simplified word multiplies by a phase and inverts bits. -/
theorem wordOp_apply (w : List POp) (hw : NormalWord w) (ψ : Vec) (i : ℕ) :
    wordOp w ψ i = wordPhase true w i * ψ (i ^^^ xorBits w) := by
  induction w using List.reverseRecOn generalizing ψ with
  | nil => simp [wordOp_nil, wordPhase, xorBits]
  | append_singleton w o ih =>
    have hw' := List.pairwise_append.1 hw
    have h1 := xorBits_lt w hw'.1 o.n (fun x hx => hw'.2.2 x hx o (by simp))
    rw [wordOp_append, wordOp_singleton, Module.End.mul_apply, ih hw'.1, opOp_apply, Nat.testBit_xor,
      Nat.testBit_lt_two_pow h1, Bool.xor_false, wordPhase_snoc, xorBits_snoc_xor w o hw, Nat.xor_assoc]
    ring

theorem wordPhase_congr (rm : Bool) (w : List POp) (i j : ℕ) (h : ∀ o ∈ w, i.testBit o.n = j.testBit o.n) :
    wordPhase rm w i = wordPhase rm w j := by
  rw [wordPhase, wordPhase]
  congr 1
  apply List.map_congr_left
  intro o ho; rw [h o ho]

/-- The column-major factors are the row-major ones at the row of the entry. -/
theorem wordPhase_col (w : List POp) (hw : NormalWord w) (j : ℕ) :
    wordPhase false w j = wordPhase true w (j ^^^ xorBits w) := by
  induction w using List.reverseRecOn with
  | nil => simp [wordPhase]
  | append_singleton w o ih =>
    have hw' := List.pairwise_append.1 hw
    have h1 := xorBits_lt w hw'.1 o.n (fun x hx => hw'.2.2 x hx o (by simp))
    rw [wordPhase_snoc, wordPhase_snoc, ih hw'.1, xorBits_snoc_xor w o hw]
    congr 1
    · apply wordPhase_congr
      intro x hx
      have hlt := hw'.2.2 x hx o (by simp)
      rw [← Nat.xor_assoc, Nat.testBit_xor (_ ^^^ _) (opXor o)]
      have : (opXor o).testBit x.n = false := by
        rw [opXor]; split_ifs
        · rw [Nat.testBit_two_pow]; simp; omega
        · simp
      simp [this]
    · simp only [Nat.testBit_xor, Nat.testBit_lt_two_pow h1, Bool.false_xor]
      obtain ⟨p, n⟩ := o
      cases p <;> cases h : j.testBit n <;> simp [phase, opXor, h]

/-- The entry of a word. -/
theorem wordOp_entry (w : List POp) (hw : NormalWord w) (i j : ℕ) :
    wordOp w (basis j) i = if i ^^^ xorBits w = j then wordPhase true w i else 0 := by
  rw [wordOp_apply w hw, basis]
  split_ifs <;> simp

theorem xor_eq_comm (i j x : ℕ) : i ^^^ x = j ↔ j ^^^ x = i := by
  constructor <;> rintro rfl <;> simp [Nat.xor_assoc]

theorem wordOp_entry_col (w : List POp) (hw : NormalWord w) (i j : ℕ) :
    wordOp w (basis j) i = if j ^^^ xorBits w = i then wordPhase false w j else 0 := by
  rw [wordOp_entry w hw]
  by_cases h : i ^^^ xorBits w = j
  · rw [if_pos h, if_pos ((xor_eq_comm _ _ _).1 h), wordPhase_col w hw, (xor_eq_comm _ _ _).1 h]
  · rw [if_neg h, if_neg (fun h' => h ((xor_eq_comm _ _ _).1 h'))]

/-! ## One compressed row or column -/

theorem rangeMap_getD {α : Type} [Inhabited α] (n : ℕ) (g : ℕ → α) (j : ℕ) (d : α) (h : j < n) :
    ((List.range n).map g).getD j d = g j := by
  simp [List.getD, List.getElem?_map, List.getElem?_range h]

/-- The sum over a list of positions of which at most one contributes. -/
theorem sum_range_single (n k : ℕ) (hk : k < n) (g : ℕ → ℂ) (h : ∀ i < n, i ≠ k → g i = 0) :
    ((List.range n).map g).sum = g k := by
  induction n with
  | zero => omega
  | succ n ih =>
    rw [List.range_succ, List.map_append, List.sum_append, List.map_singleton, List.sum_singleton]
    by_cases hkn : k = n
    · subst hkn
      rw [show ((List.range k).map g).sum = 0 from ?_, zero_add]
      apply List.sum_eq_zero
      intro x hx
      obtain ⟨i, hi, rfl⟩ := List.mem_map.1 hx
      have := List.mem_range.1 hi
      exact h i (by omega) (by omega)
    · rw [ih (by omega) (fun i hi => h i (by omega)), h n (by omega) (fun e => hkn e.symm), add_zero]

end

end Blueqat
