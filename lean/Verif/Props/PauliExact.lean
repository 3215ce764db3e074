import Verif.Spec.Overwritten
import Verif.Props.Pauli

/-!
# C33: what every operation computes, for all values
-/

set_option linter.unusedSimpArgs false
set_option linter.unusedVariables false

namespace Blueqat

open Spec

theorem filter_set_mem (ks : List (List POp)) (k : List POp) (hk : k ∈ ks) (v : ℂ) : ∀ d : PyDict (List POp) ℂ,
    (d.set k v).filter (fun p => decide (p.1 ∉ ks)) = d.filter (fun p => decide (p.1 ∉ ks))
  | [] => by simp [PyDict.set, hk]
  | (a, b) :: d => by
    simp only [PyDict.set]
    by_cases h : a = k
    · subst h
      rw [if_pos rfl]
      simp [List.filter_cons, hk]
    · rw [if_neg h, List.filter_cons, List.filter_cons, filter_set_mem ks k hk v d]

theorem dictOp_filter_set (ks : List (List POp)) (k : List POp) (hk : k ∉ ks) (v : ℂ) : ∀ d : PyDict (List POp) ℂ, d.WF →
    dictOp ((d.set k v).filter (fun p => decide (p.1 ∉ ks))) =
      v • wordOp k + dictOp (d.filter (fun p => decide (p.1 ∉ k :: ks)))
  | [], _ => by simp [PyDict.set, hk, dictOp]
  | (a, b) :: d, hd => by
    simp only [PyDict.WF, List.map_cons, List.nodup_cons] at hd
    simp only [PyDict.set]
    by_cases h : a = k
    · subst h
      rw [if_pos rfl, List.filter_cons_of_pos (by simpa using hk), List.filter_cons_of_neg (by simp), dictOp_cons]
      congr 2
      refine List.filter_congr (fun p hp => ?_)
      have : p.1 ≠ a := fun e => hd.1 (e ▸ List.mem_map_of_mem hp)
      simp [this]
    · rw [if_neg h]
      have ih := dictOp_filter_set ks k hk v d hd.2
      by_cases ha : a ∈ ks
      · rw [List.filter_cons_of_neg (by simpa using ha), List.filter_cons_of_neg (by simp [ha]), ih]
      · rw [List.filter_cons_of_pos (by simpa using ha), List.filter_cons_of_pos (by simp [ha, h]), dictOp_cons, dictOp_cons, ih]
        abel

theorem foldl_set_exact (ts : List PTerm) : ∀ d : PyDict (List POp) ℂ, d.WF →
    dictOp (ts.foldl (fun d t => d.set t.ops t.coeff) d) =
      dictOp (d.filter (fun p => decide (p.1 ∉ ts.map PTerm.ops))) + (ts.map termOp).sum - ((overwritten ts).map termOp).sum := by
  induction ts with
  | nil => intro d _; simp [overwritten]
  | cons t ts ih =>
    intro d hd
    rw [List.foldl_cons, ih _ (PyDict.wf_set hd _ _)]
    by_cases h : t.ops ∈ ts.map PTerm.ops
    · rw [filter_set_mem _ _ h, overwritten, if_pos h]
      have : d.filter (fun p => decide (p.1 ∉ (t :: ts).map PTerm.ops)) = d.filter (fun p => decide (p.1 ∉ ts.map PTerm.ops)) := by
        refine List.filter_congr (fun p hp => ?_)
        rw [List.map_cons]
        by_cases hp' : p.1 ∈ ts.map PTerm.ops
        · simp only [List.mem_cons, hp', or_true]
        · have : p.1 ≠ t.ops := fun e => hp' (e ▸ h)
          simp only [List.mem_cons, hp', this, or_false]
      rw [this, List.map_cons, List.map_cons, List.sum_cons, List.sum_cons]
      abel
    · rw [dictOp_filter_set _ _ h _ _ hd, overwritten, if_neg h, List.map_cons, List.map_cons, List.sum_cons, termOp]
      abel

theorem words_nodup_toExpr (a : PVal) (h : ∀ e, a ≠ .expr e) : a.toExpr.words.Nodup := by
  cases a with
  | num x => simp [PVal.toExpr, PExpr.fromNumber, PExpr.fromTerm, PExpr.words, PExpr.zero]; split_ifs <;> simp
  | pauli p => simp [PVal.toExpr, Pauli.toExpr, PExpr.fromTerm, PExpr.words, PExpr.zero]; split_ifs <;> simp
  | term t => simp [PVal.toExpr, PExpr.fromTerm, PExpr.words, PExpr.zero]; split_ifs <;> simp
  | expr e => exact absurd rfl (h e)

theorem termsToDict_exact (e : PExpr) : dictOp e.termsToDict = exprOp e - lostOp (.expr e) := by
  rw [PExpr.termsToDict, foldl_set_exact _ _ wf_nil, filter_ne_zero_sum, List.filter_nil, dictOp_nil, zero_add]
  rfl

/-- C33 (exact). For all values (numbers, Pauli operators, terms and expressions with repeated words): `a + b` is the sum and `a - b`
the difference without what is lost of `a`, the terms of an expression whose operators occur again in a later term; so they are
right if and only if these terms add up to zero. Signs, products, quotients and powers are always right. -/
theorem C33_exact (a b : PVal) :
    valOp (pvAdd a b) = valOp a + valOp b - lostOp a ∧ valOp (pvSub a b) = valOp a - valOp b - lostOp a ∧
    (valOp (pvAdd a b) = valOp a + valOp b ↔ lostOp a = 0) ∧ (valOp (pvSub a b) = valOp a - valOp b ↔ lostOp a = 0) ∧
    valOp (pvNeg a) = -valOp a ∧ valOp (pvMul a b) = valOp a * valOp b ∧
    (∀ x v, pvDiv a x = .ok v → valOp v = (x.val)⁻¹ • valOp a) ∧ (∀ (n : ℕ) v, pvPow a n = .ok v → valOp v = valOp a ^ n) := by
  have hadd : ∀ e f : PExpr, exprOp (e.add f) = exprOp e + exprOp f - lostOp (.expr e) := by
    intro e f
    rw [PExpr.add, fromTermsDict_op, (foldl_addStep_op _ _ (termsToDict_wf e)).1, termsToDict_exact]
    show _ + exprOp f = _
    abel
  have hsub : ∀ e f : PExpr, exprOp (e.sub f) = exprOp e - exprOp f - lostOp (.expr e) := by
    intro e f
    rw [PExpr.sub, fromTermsDict_op, foldl_subStep, (foldl_addStep_op _ _ (termsToDict_wf e)).1, termsToDict_exact, sum_neg_terms]
    show _ + -exprOp f = _
    abel
  have h1 : valOp (pvAdd a b) = valOp a + valOp b - lostOp a := by
    cases a with
    | expr e =>
      have := hadd e b.toExpr
      rw [toExpr_op] at this
      cases b <;> exact this
    | num x => rw [pvAdd_op _ _ (words_nodup_toExpr _ (by intro e; nofun))]; simp [lostOp]
    | pauli p => rw [pvAdd_op _ _ (words_nodup_toExpr _ (by intro e; nofun))]; simp [lostOp]
    | term t => rw [pvAdd_op _ _ (words_nodup_toExpr _ (by intro e; nofun))]; simp [lostOp]
  have h2 : valOp (pvSub a b) = valOp a - valOp b - lostOp a := by
    cases a with
    | expr e =>
      have := hsub e b.toExpr
      rw [toExpr_op] at this
      cases b <;> exact this
    | num x => rw [pvSub_op _ _ (words_nodup_toExpr _ (by intro e; nofun))]; simp [lostOp]
    | pauli p => rw [pvSub_op _ _ (words_nodup_toExpr _ (by intro e; nofun))]; simp [lostOp]
    | term t => rw [pvSub_op _ _ (words_nodup_toExpr _ (by intro e; nofun))]; simp [lostOp]
  refine ⟨h1, h2, ?_, ?_, pvNeg_op a, pvMul_op a b, fun x v h => pvDiv_op h, fun n v h => pvPow_op h⟩
  · rw [h1, sub_eq_self]
  · rw [h2, sub_eq_self]

/-- The loss occurs: the value of `((2*X[0])**2 + 1) * X[0]` loses `4 X` of `5 X` when anything is added. -/
example : lostOp (.expr ⟨[⟨[⟨.X, 0⟩], 4⟩, ⟨[⟨.X, 0⟩], 1⟩]⟩) = (4 : ℂ) • opOp ⟨.X, 0⟩ ∧
    lostOp (.expr ⟨[⟨[⟨.X, 0⟩], 4⟩, ⟨[⟨.Z, 0⟩], 1⟩]⟩) = 0 := by
  constructor <;> simp [lostOp, overwritten, termOp, wordOp_singleton]

end Blueqat
