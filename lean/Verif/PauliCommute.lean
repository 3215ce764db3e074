import Verif.PauliIndep
import Mathlib.Tactic.Linarith

/-!
# Commutation of Pauli words
-/

set_option linter.unusedSimpArgs false
set_option linter.unusedVariables false

namespace Blueqat

open Spec

theorem sign1_cases (o o' : POp) : sign1 o o' = 1 ∨ sign1 o o' = -1 := by
  rw [sign1]; split_ifs <;> simp

theorem signW_cases (w : List POp) (o : POp) : signW w o = 1 ∨ signW w o = -1 := by
  rw [signW]
  induction w with
  | nil => simp
  | cons x w ih =>
    rw [List.map_cons, List.prod_cons]
    rcases sign1_cases o x with h | h <;> rcases ih with h' | h' <;> simp [h, h']

/-- Two words commute or anticommute. -/
theorem word_comm_cases (u w : List POp) : ∃ s : ℂ, (s = 1 ∨ s = -1) ∧
    wordOp u * wordOp w = s • (wordOp w * wordOp u) := by
  induction u with
  | nil => exact ⟨1, by simp, by simp [wordOp_nil]⟩
  | cons o u ih =>
    obtain ⟨s, hs, h⟩ := ih
    refine ⟨s * signW w o, ?_, ?_⟩
    · rcases hs with rfl | rfl <;> rcases signW_cases w o with h | h <;> simp [h]
    · rw [wordOp_cons, mul_assoc, h, mul_smul_comm, ← mul_assoc, opOp_word, smul_mul_assoc, smul_smul, mul_assoc]

/-- A word squares to plus or minus one. -/
theorem word_sq_cases (w : List POp) : ∃ s : ℂ, (s = 1 ∨ s = -1) ∧ wordOp w * wordOp w = s • 1 := by
  induction w with
  | nil => exact ⟨1, by simp, by simp [wordOp_nil]⟩
  | cons o w ih =>
    obtain ⟨s, hs, h⟩ := ih
    have ho := opOp_word o w
    refine ⟨s * signW w o, ?_, ?_⟩
    · rcases hs with rfl | rfl <;> rcases signW_cases w o with h | h <;> simp [h]
    · rw [wordOp_cons]
      calc opOp o * wordOp w * (opOp o * wordOp w)
          = opOp o * wordOp w * (signW w o • (wordOp w * opOp o)) := by rw [ho]
        _ = signW w o • (opOp o * wordOp w * (wordOp w * opOp o)) := by rw [mul_smul_comm]
        _ = signW w o • (opOp o * (wordOp w * wordOp w) * opOp o) := by simp only [mul_assoc]
        _ = signW w o • s • (opOp o * opOp o) := by rw [h, mul_smul_comm, mul_one, smul_mul_assoc]
        _ = _ := by rw [opOp_sq, smul_smul, mul_comm]

theorem smul_one_inj {c d : ℂ} (h : c • (1 : Operator) = d • 1) : c = d := by
  have := congrFun (DFunLike.congr_fun h (fun _ => (1 : ℂ))) 0
  simpa using this

/-- Simplification keeps the modulus of the coefficient. -/
theorem simplify_norm (t : PTerm) : ‖t.simplify.coeff‖ = ‖t.coeff‖ := by
  have h := simplify_op t
  rw [termOp, termOp] at h
  have h2 : (t.simplify.coeff * t.simplify.coeff) • (wordOp t.simplify.ops * wordOp t.simplify.ops) =
      (t.coeff * t.coeff) • (wordOp t.ops * wordOp t.ops) := by
    rw [← smul_mul_smul_comm, ← smul_mul_smul_comm, h]
  obtain ⟨a, ha, ha'⟩ := word_sq_cases t.simplify.ops
  obtain ⟨b, hb, hb'⟩ := word_sq_cases t.ops
  rw [ha', hb', smul_smul, smul_smul] at h2
  have h3 := congrArg norm (smul_one_inj h2)
  have na : ‖a‖ = 1 := by rcases ha with rfl | rfl <;> simp
  have nb : ‖b‖ = 1 := by rcases hb with rfl | rfl <;> simp
  simp only [norm_mul, na, nb, mul_one] at h3
  exact (mul_self_inj (norm_nonneg _) (norm_nonneg _)).1 h3

theorem commutator_op (a b : PExpr) :
    exprOp (commutator a b) = exprOp a * exprOp b - exprOp b * exprOp a := by
  rw [commutator, exprSimplify_op, exprSub_op _ _ (exprMul_nodup _ _), exprMul_op, exprMul_op, exprSimplify_op,
    exprSimplify_op]

theorem simplify_zero : PExpr.simplify ⟨[]⟩ = ⟨[]⟩ := by
  simp [PExpr.simplify, PExpr.simplifyDict, sortByRepr, PExpr.fromTermsIter]

/-- The simplified form of a non-zero operator given by one term. -/
theorem simplify_of_term {e : PExpr} {t : PTerm} (ht : t.coeff ≠ 0) (h : exprOp e = termOp t) :
    e.simplify.terms = [t.simplify] := by
  have hc : t.simplify.coeff ≠ 0 := by
    rw [← norm_ne_zero_iff, simplify_norm, norm_ne_zero_iff]; exact ht
  have : e.simplify = (⟨[t.simplify]⟩ : PExpr).simplify := simplify_canonical (by
    rw [h, ← simplify_op t]; simp [exprOp])
  rw [this, simplify_terms]
  have hw : simpWords ⟨[t.simplify]⟩ = [t.simplify.ops] := by
    simp [simpWords, PExpr.simplifyDict, dictAdd, PyDict.get, PyDict.set, sortByRepr, coef,
      simplify_of_normal _ (simplify_normal t), hc]
  rw [hw]
  simp [PExpr.simplifyDict, dictAdd, PyDict.get, PyDict.set, coef, simplify_of_normal _ (simplify_normal t)]

theorem commutator_of_term {a b : PExpr} {t : PTerm} (ht : t.coeff ≠ 0)
    (h : exprOp a * exprOp b - exprOp b * exprOp a = termOp t) : (commutator a b).terms = [t.simplify] := by
  refine simplify_of_term ht ?_
  rw [← h, exprSub_op _ _ (exprMul_nodup _ _), exprMul_op, exprMul_op, exprSimplify_op, exprSimplify_op]

end Blueqat
