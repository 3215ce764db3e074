import Verif.Spec.Pauli
import Verif.FallbackOps
import Mathlib.Tactic.Module
import Mathlib.Tactic.NoncommRing
import Mathlib.Data.List.Nodup
import Mathlib.Data.List.Induction

/-!
# Lemmas about Pauli words, dictionaries of words and `join_ops`
-/

set_option linter.unusedSimpArgs false
set_option linter.unusedVariables false

namespace Blueqat

open Spec

/-! ## Operators -/

theorem matAt_apply (M : M2) (n : ℕ) (ψ : Vec) : matAt M n ψ = app M n ψ := rfl

theorem matAt_mul (M N : M2) (n : ℕ) : matAt M n * matAt N n = matAt (M * N) n := by
  ext1 ψ; exact app_app n M N ψ

theorem matAt_one (n : ℕ) : matAt 1 n = 1 := by
  ext1 ψ; exact app_one n ψ

theorem matAt_comm {a b : ℕ} (h : a ≠ b) (M N : M2) : Commute (matAt M a) (matAt N b) := by
  ext1 ψ; exact app_comm h M N ψ

theorem matAt_smul (z : ℂ) (M : M2) (n : ℕ) : matAt ⟨z * M.a, z * M.b, z * M.c, z * M.d⟩ n = z • matAt M n := by
  ext1 ψ; funext i
  simp only [matAt_apply, app, LinearMap.smul_apply, Pi.smul_apply, smul_eq_mul]
  split_ifs <;> ring

theorem letterM_sq (p : PLetter) : letterM p * letterM p = 1 := by
  cases p
  · exact mX_mX
  · exact mY_mY
  · exact mZ_mZ

theorem opOp_sq (o : POp) : opOp o * opOp o = 1 := by
  rw [opOp, matAt_mul, letterM_sq, matAt_one]

theorem opOp_comm {a b : POp} (h : a.n ≠ b.n) : Commute (opOp a) (opOp b) := matAt_comm h _ _

theorem wordOp_nil : wordOp [] = 1 := rfl
theorem wordOp_cons (o : POp) (l : List POp) : wordOp (o :: l) = opOp o * wordOp l := by simp [wordOp]
theorem wordOp_append (a b : List POp) : wordOp (a ++ b) = wordOp a * wordOp b := by simp [wordOp]
theorem wordOp_singleton (o : POp) : wordOp [o] = opOp o := by simp [wordOp]

/-! ## join_ops -/

theorem joinLoop_op (a b : List POp) : ∀ i j, i ≤ a.length →
    wordOp (a.take (joinLoop a b i j).1) * wordOp (b.drop (joinLoop a b i j).2) =
      wordOp (a.take i) * wordOp (b.drop j)
  | 0, j, _ => by simp [joinLoop]
  | i + 1, j, hi => by
    rw [joinLoop]
    split_ifs with h
    · rw [joinLoop_op a b i (j + 1) (by omega)]
      obtain ⟨hj, he⟩ := h
      rw [List.getElem?_eq_getElem (by omega : i < a.length), List.getElem?_eq_getElem hj] at he
      injection he with he
      rw [List.take_add_one, List.getElem?_eq_getElem (by omega : i < a.length), Option.toList_some,
        wordOp_append, List.drop_eq_getElem_cons hj, wordOp_singleton, wordOp_cons, he, mul_assoc,
        ← mul_assoc (opOp _) (opOp _), opOp_sq, one_mul]
    · rfl

theorem joinOps_op (a b : List POp) : wordOp (joinOps a b) = wordOp a * wordOp b := by
  rw [joinOps, wordOp_append, joinLoop_op a b _ _ le_rfl]; simp

theorem tupleRepeat_op (l : List POp) (n : ℕ) : wordOp (tupleRepeat l n) = wordOp l ^ n := by
  induction n with
  | zero => simp [tupleRepeat, wordOp_nil]
  | succ n ih => rw [tupleRepeat, wordOp_append, ih, pow_succ']

theorem fromPauli_op (p : Pauli) (c : ℂ) : termOp (.fromPauli p c) = c • pauliOp p := by
  cases p with
  | I => simp [PTerm.fromPauli, termOp, wordOp_nil, pauliOp]
  | op o =>
    rw [PTerm.fromPauli]
    split_ifs with h
    · simp [termOp, h]
    · simp [termOp, wordOp_singleton, pauliOp]

theorem toTerm_op (p : Pauli) : termOp p.toTerm = pauliOp p := by rw [Pauli.toTerm, fromPauli_op, one_smul]

theorem pauliMul_op (p q : Pauli) : termOp (p.mul q) = pauliOp p * pauliOp q := by
  cases p with
  | I => cases q <;> simp [Pauli.mul, toTerm_op, pauliOp]
  | op a =>
    cases q with
    | I => simp [Pauli.mul, toTerm_op, pauliOp]
    | op b =>
      rw [Pauli.mul]
      · split_ifs with h
        · obtain ⟨h1, h2⟩ := h
          have : a = b := by cases a; cases b; simp_all
          rw [toTerm_op, this]; simp [pauliOp, opOp_sq]
        · simp [PTerm.fromPauliPair, termOp, joinOps_op, wordOp_singleton, pauliOp]
      all_goals simp

theorem termMul_op (a b : PTerm) : termOp (a.mul b) = termOp a * termOp b := by
  simp only [PTerm.mul, termOp, joinOps_op, smul_mul_smul_comm]

theorem termScale_op (a : PTerm) (c : ℂ) : termOp (a.scale c) = c • termOp a := by
  simp only [PTerm.scale, termOp, smul_smul, mul_comm]

theorem termMulPauli_op (a : PTerm) (p : Pauli) : termOp (a.mulPauli p) = termOp a * pauliOp p := by
  cases p <;> simp [PTerm.mulPauli, termOp, joinOps_op, pauliOp, wordOp_singleton, smul_mul_assoc]

theorem termRmulPauli_op (a : PTerm) (p : Pauli) : termOp (a.rmulPauli p) = pauliOp p * termOp a := by
  cases p <;> simp [PTerm.rmulPauli, termOp, joinOps_op, pauliOp, wordOp_singleton, mul_smul_comm]

theorem termNeg_op (a : PTerm) : termOp a.neg = -termOp a := by
  simp only [PTerm.neg, termOp]; module

theorem termPow_op (a b : PTerm) (n : ℤ) (h : a.pow n = .ok b) : termOp b = termOp a ^ n.toNat := by
  rw [PTerm.pow] at h
  split_ifs at h with h1 h2
  · injection h with h; subst h; rw [fromPauli_op]; simp [h2, pauliOp]
  · injection h with h; subst h; simp only [termOp, tupleRepeat_op, smul_pow]

theorem termDiv_op (a b : PTerm) (x : PyNum) (h : a.div x = some (.ok b)) : termOp b = (x.val)⁻¹ • termOp a := by
  cases x with
  | cplx z => simp [PTerm.div] at h
  | real r =>
    simp only [PTerm.div, Option.some.injEq] at h
    split_ifs at h with h1
    · injection h with h; subst h
      simp [termOp, smul_smul, PyNum.val, div_eq_mul_inv, mul_comm]

/-! ## Dictionaries from words to coefficients -/

/-- The operator of a dictionary. -/
noncomputable def dictOp (d : PyDict (List POp) ℂ) : Operator := (d.map (fun p => p.2 • wordOp p.1)).sum

theorem dictOp_nil : dictOp [] = 0 := rfl
theorem dictOp_cons (k : List POp) (v : ℂ) (d : PyDict (List POp) ℂ) :
    dictOp ((k, v) :: d) = v • wordOp k + dictOp d := by simp [dictOp]

theorem dictOp_set (d : PyDict (List POp) ℂ) (k : List POp) (v : ℂ) :
    dictOp (d.set k v) = dictOp d + (v - (d.get k).getD 0) • wordOp k := by
  induction d with
  | nil => simp [PyDict.set, PyDict.get, dictOp]
  | cons p d ih =>
    obtain ⟨k', v'⟩ := p
    rw [PyDict.set, PyDict.get]
    split_ifs with h
    · subst h; rw [dictOp_cons, dictOp_cons, Option.getD_some]; module
    · rw [dictOp_cons, dictOp_cons, ih]; module

section
variable {α β : Type} [DecidableEq α]

theorem PyDict.map_fst_set (d : PyDict α β) (k : α) (v : β) :
    (d.set k v).map Prod.fst = if k ∈ d.map Prod.fst then d.map Prod.fst else d.map Prod.fst ++ [k] := by
  induction d with
  | nil => simp [PyDict.set]
  | cons p d ih =>
    obtain ⟨k', v'⟩ := p
    rw [PyDict.set]
    by_cases h : k' = k
    · subst h; simp
    · rw [if_neg h, List.map_cons, ih]
      simp only [List.map_cons, List.mem_cons, Ne.symm h, false_or]
      split_ifs <;> simp

theorem PyDict.mem_map_fst_set (d : PyDict α β) (k k' : α) (v : β) :
    k' ∈ (d.set k v).map Prod.fst ↔ k' = k ∨ k' ∈ d.map Prod.fst := by
  rw [map_fst_set]; split_ifs with h
  · constructor
    · exact Or.inr
    · rintro (rfl | h') <;> assumption
  · simp only [List.mem_append, List.mem_singleton]; exact or_comm

theorem PyDict.wf_set {d : PyDict α β} (h : d.WF) (k : α) (v : β) : (d.set k v).WF := by
  rw [PyDict.WF, map_fst_set]
  split_ifs with hk
  · exact h
  · rw [List.nodup_append]
    refine ⟨h, by simp, ?_⟩
    rintro a ha b hb rfl
    rw [List.mem_singleton] at hb
    exact hk (hb ▸ ha)

theorem PyDict.wf_del {d : PyDict α β} (h : d.WF) (k : α) : (d.del k).WF := by
  unfold PyDict.WF PyDict.del at *
  exact h.sublist (List.Sublist.map _ (List.filter_sublist))

theorem PyDict.get_eq_none {d : PyDict α β} {k : α} : d.get k = none ↔ k ∉ d.map Prod.fst := by
  induction d with
  | nil => simp [PyDict.get]
  | cons p d ih =>
    obtain ⟨k', v⟩ := p
    rw [PyDict.get]
    split_ifs with h
    · subst h; simp
    · rw [ih]; simp [Ne.symm h]

theorem PyDict.get_of_mem {d : PyDict α β} (h : d.WF) {k : α} {v : β} (hm : (k, v) ∈ d) : d.get k = some v := by
  induction d with
  | nil => simp at hm
  | cons p d ih =>
    obtain ⟨k', v'⟩ := p
    rw [PyDict.WF, List.map_cons, List.nodup_cons] at h
    rw [PyDict.get]
    rcases List.mem_cons.1 hm with hm | hm
    · cases hm; simp
    · have : k' ≠ k := by
        rintro rfl; exact h.1 (List.mem_map.2 ⟨_, hm, rfl⟩)
      rw [if_neg this, ih h.2 hm]
end

theorem dictOp_del (d : PyDict (List POp) ℂ) (h : d.WF) (k : List POp) :
    dictOp (d.del k) = dictOp d - ((d.get k).getD 0) • wordOp k := by
  induction d with
  | nil => simp [PyDict.del, PyDict.get, dictOp]
  | cons p d ih =>
    obtain ⟨k', v'⟩ := p
    rw [PyDict.WF, List.map_cons, List.nodup_cons] at h
    have ih := ih h.2
    rw [PyDict.get]
    by_cases hk : k' = k
    · subst hk
      rw [PyDict.get_eq_none.2 h.1] at ih
      simp only [PyDict.del, List.filter_cons, ne_eq, not_true, decide_false, Bool.false_eq_true, if_false] at ih ⊢
      rw [ih, dictOp_cons]; simp
    · rw [if_neg hk, dictOp_cons]
      simp only [PyDict.del, List.filter_cons, ne_eq, hk, not_false_iff, decide_true, if_true] at ih ⊢
      rw [dictOp_cons, ih]; module

theorem addStep_op {d : PyDict (List POp) ℂ} (h : d.WF) (t : PTerm) :
    dictOp (addStep d t) = dictOp d + termOp t ∧ (addStep d t).WF := by
  rw [addStep]
  rcases hg : d.get t.ops with _ | v
  · simp only [hg]
    refine ⟨?_, PyDict.wf_set h _ _⟩
    rw [dictOp_set, hg]; simp [termOp]
  · simp only [hg]
    split_ifs with h0
    · refine ⟨?_, PyDict.wf_del (PyDict.wf_set h _ _) _⟩
      rw [dictOp_del _ (PyDict.wf_set h _ _), dictOp_set, PyDict.get_set, hg, if_pos rfl]
      simp only [Option.getD_some, termOp, h0]
      have : t.coeff = -v := by linear_combination h0
      rw [this]; module
    · refine ⟨?_, PyDict.wf_set h _ _⟩
      rw [dictOp_set, hg]; simp only [Option.getD_some, termOp]; module

theorem subStep_eq (d : PyDict (List POp) ℂ) (t : PTerm) : subStep d t = addStep d t.neg := by
  simp only [subStep, addStep, PTerm.neg, sub_eq_add_neg]
  cases d.get t.ops <;> rfl

theorem foldl_addStep_op (ts : List PTerm) : ∀ d : PyDict (List POp) ℂ, d.WF →
    dictOp (ts.foldl addStep d) = dictOp d + (ts.map termOp).sum ∧ (ts.foldl addStep d).WF := by
  induction ts with
  | nil => intro d h; simp [h]
  | cons t ts ih =>
    intro d h
    obtain ⟨h1, h2⟩ := addStep_op h t
    obtain ⟨h3, h4⟩ := ih _ h2
    refine ⟨?_, h4⟩
    rw [List.foldl_cons, h3, h1, List.map_cons, List.sum_cons, add_assoc]

theorem dictAdd_op (d : PyDict (List POp) ℂ) (t : PTerm) : dictOp (dictAdd d t) = dictOp d + termOp t := by
  rw [dictAdd, dictOp_set, termOp]; module

theorem foldl_dictAdd_op (ts : List PTerm) : ∀ d : PyDict (List POp) ℂ,
    dictOp (ts.foldl dictAdd d) = dictOp d + (ts.map termOp).sum := by
  induction ts with
  | nil => intro d; simp
  | cons t ts ih =>
    intro d
    rw [List.foldl_cons, ih, dictAdd_op, List.map_cons, List.sum_cons, add_assoc]

theorem foldl_dictAdd_wf (ts : List PTerm) : ∀ d : PyDict (List POp) ℂ, d.WF → (ts.foldl dictAdd d).WF := by
  induction ts with
  | nil => intro d h; exact h
  | cons t ts ih => intro d h; exact ih _ (PyDict.wf_set h _ _)

theorem filter_ne_zero_sum (ts : List PTerm) :
    ((ts.filter (fun t => decide (t.coeff ≠ 0))).map termOp).sum = (ts.map termOp).sum := by
  induction ts with
  | nil => rfl
  | cons t ts ih =>
    by_cases h : t.coeff = 0
    · simp only [List.filter_cons, h, ne_eq, not_true, decide_false, Bool.false_eq_true, if_false, List.map_cons,
        List.sum_cons] at ih ⊢
      rw [ih]; simp [termOp, h]
    · simp only [List.filter_cons, h, ne_eq, not_false_iff, decide_true, if_true, List.map_cons,
        List.sum_cons] at ih ⊢
      rw [ih]

theorem fromTermsIter_op (ts : List PTerm) : exprOp (.fromTermsIter ts) = (ts.map termOp).sum :=
  filter_ne_zero_sum ts

theorem fromTermsDict_op (d : PyDict (List POp) ℂ) : exprOp (.fromTermsDict d) = dictOp d := by
  induction d with
  | nil => rfl
  | cons p d ih =>
    obtain ⟨k, v⟩ := p
    rw [dictOp_cons, ← ih]
    by_cases h : v = 0
    · simp [PExpr.fromTermsDict, exprOp, h]
    · simp [PExpr.fromTermsDict, exprOp, h, termOp]

/-- The words of the expression, with multiplicity. -/
def PExpr.words (e : PExpr) : List (List POp) := e.terms.map PTerm.ops

theorem foldl_set_op (ts : List PTerm) : ∀ d : PyDict (List POp) ℂ,
    (∀ t ∈ ts, t.ops ∉ d.map Prod.fst) → (ts.map PTerm.ops).Nodup →
    dictOp (ts.foldl (fun d t => d.set t.ops t.coeff) d) = dictOp d + (ts.map termOp).sum := by
  induction ts with
  | nil => intro d _ _; simp
  | cons t ts ih =>
    intro d hd hn
    rw [List.map_cons, List.nodup_cons] at hn
    rw [List.foldl_cons, ih _ ?_ hn.2, dictOp_set, PyDict.get_eq_none.2 (hd t (by simp)), List.map_cons,
      List.sum_cons]
    · simp only [Option.getD_none, sub_zero, termOp]; module
    · intro s hs
      rw [PyDict.mem_map_fst_set, not_or]
      exact ⟨fun h => hn.1 (h ▸ List.mem_map_of_mem hs), hd s (List.mem_cons_of_mem _ hs)⟩

theorem foldl_set_wf (ts : List PTerm) : ∀ d : PyDict (List POp) ℂ, d.WF →
    (ts.foldl (fun d t => d.set t.ops t.coeff) d).WF := by
  induction ts with
  | nil => intro d h; exact h
  | cons t ts ih => intro d h; exact ih _ (PyDict.wf_set h _ _)

theorem wf_nil : PyDict.WF ([] : PyDict (List POp) ℂ) := by simp [PyDict.WF]

theorem termsToDict_wf (e : PExpr) : e.termsToDict.WF := foldl_set_wf _ _ wf_nil

theorem termsToDict_op (e : PExpr) (h : e.words.Nodup) : dictOp e.termsToDict = exprOp e := by
  rw [PExpr.termsToDict, foldl_set_op _ _ (by simp) (h.sublist (List.Sublist.map _ List.filter_sublist)),
    filter_ne_zero_sum, dictOp_nil, zero_add, exprOp]

theorem fromTermsDict_nodup {d : PyDict (List POp) ℂ} (h : d.WF) : (PExpr.fromTermsDict d).words.Nodup := by
  rw [PExpr.words, PExpr.fromTermsDict, List.map_map]
  exact h.sublist (List.Sublist.map _ List.filter_sublist)

/-! ## Operations of expressions -/

theorem exprAdd_op (a b : PExpr) (h : a.words.Nodup) : exprOp (a.add b) = exprOp a + exprOp b := by
  rw [PExpr.add, fromTermsDict_op, (foldl_addStep_op _ _ (termsToDict_wf a)).1, termsToDict_op a h]; rfl

theorem exprAdd_nodup (a b : PExpr) : (a.add b).words.Nodup :=
  fromTermsDict_nodup (foldl_addStep_op _ _ (termsToDict_wf a)).2

theorem foldl_subStep (ts : List PTerm) (d : PyDict (List POp) ℂ) :
    ts.foldl subStep d = (ts.map PTerm.neg).foldl addStep d := by
  rw [List.foldl_map]; congr 1

theorem sum_neg_terms (ts : List PTerm) : ((ts.map PTerm.neg).map termOp).sum = -(ts.map termOp).sum := by
  induction ts with
  | nil => simp
  | cons t ts ih => simp only [List.map_cons, List.sum_cons, ih, termNeg_op]; abel

theorem exprSub_op (a b : PExpr) (h : a.words.Nodup) : exprOp (a.sub b) = exprOp a - exprOp b := by
  rw [PExpr.sub, fromTermsDict_op, foldl_subStep, (foldl_addStep_op _ _ (termsToDict_wf a)).1, termsToDict_op a h,
    sum_neg_terms, ← sub_eq_add_neg]; rfl

theorem exprSub_nodup (a b : PExpr) : (a.sub b).words.Nodup := by
  rw [PExpr.sub, foldl_subStep]
  exact fromTermsDict_nodup (foldl_addStep_op _ _ (termsToDict_wf a)).2

theorem exprNeg_op (a : PExpr) : exprOp a.neg = -exprOp a := sum_neg_terms _

theorem exprNeg_words (a : PExpr) : a.neg.words = a.words := by
  simp [PExpr.neg, PExpr.words, PTerm.neg, List.map_map, Function.comp_def]

theorem sum_scale_terms (ts : List PTerm) (z : ℂ) :
    ((ts.map (fun t : PTerm => (⟨t.ops, t.coeff * z⟩ : PTerm))).map termOp).sum = z • (ts.map termOp).sum := by
  induction ts with
  | nil => simp
  | cons t ts ih =>
    simp only [List.map_cons, List.sum_cons, ih, termOp]; module

theorem exprZero_op : exprOp .zero = 0 := rfl

theorem fromTerm_op (t : PTerm) : exprOp (.fromTerm t) = termOp t := by
  rw [PExpr.fromTerm]; split_ifs with h
  · simp [exprOp]
  · push Not at h; simp [exprZero_op, termOp, h]

theorem fromTerm_nodup (t : PTerm) : (PExpr.fromTerm t).words.Nodup := by
  rw [PExpr.fromTerm]; split_ifs <;> simp [PExpr.words, PExpr.zero]

theorem fromNumber_op (z : ℂ) : exprOp (.fromNumber z) = z • (1 : Operator) := by
  rw [PExpr.fromNumber]; split_ifs with h
  · rw [fromTerm_op]; simp [termOp, wordOp_nil]
  · push Not at h; simp [exprZero_op, h]

theorem fromNumber_nodup (z : ℂ) : (PExpr.fromNumber z).words.Nodup := by
  rw [PExpr.fromNumber]; split_ifs
  · exact fromTerm_nodup _
  · simp [PExpr.words, PExpr.zero]

theorem exprScale_op (a : PExpr) (z : ℂ) : exprOp (a.scale z) = z • exprOp a := by
  rw [PExpr.scale]; split_ifs with h
  · rw [fromNumber_op, h]; simp
  · rw [fromTermsIter_op, sum_scale_terms]; rfl

theorem exprScale_sublist (a : PExpr) (z : ℂ) : (a.scale z).words.Sublist a.words := by
  rw [PExpr.scale]; split_ifs with h
  · simp [PExpr.fromNumber, PExpr.zero, PExpr.words]
  · rw [PExpr.words, PExpr.fromTermsIter, PExpr.words]
    refine (List.Sublist.map _ List.filter_sublist).trans ?_
    rw [List.map_map]; exact List.Sublist.refl _

theorem exprMulTerm_op (a : PExpr) (t : PTerm) : exprOp (a.mulTerm t) = exprOp a * termOp t := by
  obtain ⟨ts⟩ := a
  induction ts with
  | nil => simp [PExpr.mulTerm, exprOp]
  | cons s ts ih =>
    simp only [PExpr.mulTerm, exprOp, List.map_cons, List.sum_cons] at ih ⊢
    rw [ih, termMul_op, add_mul]

theorem exprRmulTerm_op (a : PExpr) (t : PTerm) : exprOp (a.rmulTerm t) = termOp t * exprOp a := by
  obtain ⟨ts⟩ := a
  induction ts with
  | nil => simp [PExpr.rmulTerm, exprOp]
  | cons s ts ih =>
    simp only [PExpr.rmulTerm, exprOp, List.map_cons, List.sum_cons] at ih ⊢
    rw [ih, termMul_op, mul_add]

theorem exprMul_op (a b : PExpr) : exprOp (a.mul b) = exprOp a * exprOp b := by
  rw [PExpr.mul, fromTermsDict_op, foldl_dictAdd_op, dictOp_nil, zero_add]
  obtain ⟨ts⟩ := a
  induction ts with
  | nil => simp [exprOp]
  | cons s ts ih =>
    simp only [List.flatMap_cons, List.map_append, List.sum_append]
    rw [ih]
    have := exprRmulTerm_op b s
    simp only [PExpr.rmulTerm, exprOp] at this
    rw [this]; simp only [exprOp, List.map_cons, List.sum_cons, add_mul]

theorem exprMul_nodup (a b : PExpr) : (a.mul b).words.Nodup :=
  fromTermsDict_nodup (foldl_dictAdd_wf _ _ wf_nil)

theorem divTerms_op (x : PyNum) : ∀ (ts us : List PTerm), divTerms x ts = .ok us →
    (us.map termOp).sum = (x.val)⁻¹ • (ts.map termOp).sum ∧ us.map PTerm.ops = ts.map PTerm.ops
  | [], us, h => by
    injection h with h; subst h; simp
  | t :: ts, us, h => by
    rw [divTerms] at h
    rcases ht : t.div x with _ | _ | t'
    · rw [ht] at h; cases h
    · rw [ht] at h; cases h
    · rw [ht] at h
      rcases hs : divTerms x ts with _ | us'
      · simp only [hs] at h; cases h
      · simp only [hs] at h; injection h with h; subst h
        obtain ⟨h1, h2⟩ := divTerms_op x ts us' hs
        refine ⟨?_, ?_⟩
        · simp only [List.map_cons, List.sum_cons, h1, termDiv_op _ _ _ ht, smul_add]
        · have : t'.ops = t.ops := by
            cases x with
            | cplx z => simp [PTerm.div] at ht
            | real r =>
              simp only [PTerm.div, Option.some.injEq] at ht
              split_ifs at ht
              injection ht with ht; subst ht; rfl
          simp [h2, this]

theorem exprDiv_op (a b : PExpr) (x : PyNum) (h : a.div x = .ok b) :
    exprOp b = (x.val)⁻¹ • exprOp a ∧ b.words = a.words := by
  rw [PExpr.div] at h
  split_ifs at h with h1
  rcases hs : divTerms x a.terms with _ | us
  · simp only [hs] at h; cases h
  · simp only [hs] at h; injection h with h; subst h
    exact divTerms_op x _ _ hs

theorem exprPowLoop_op (a : PExpr) (k : ℕ) : ∀ v, exprOp (a.powLoop k v) = exprOp v * exprOp a ^ k := by
  induction k with
  | zero => intro v; simp [PExpr.powLoop]
  | succ k ih => intro v; rw [PExpr.powLoop, ih, exprMul_op, pow_succ', mul_assoc]

theorem exprPow_op (a b : PExpr) (n : ℤ) (h : a.pow n = .ok b) : exprOp b = exprOp a ^ n.toNat := by
  rw [PExpr.pow] at h
  split_ifs at h with h1 h2
  · injection h with h; subst h; rw [fromNumber_op]; simp [h2]
  · injection h with h; subst h
    rw [exprPowLoop_op, ← pow_succ']; congr 1; omega

theorem exprPowLoop_nodup (a : PExpr) (k : ℕ) : ∀ v, v.words.Nodup → (a.powLoop k v).words.Nodup := by
  induction k with
  | zero => intro v h; exact h
  | succ k ih => intro v h; exact ih _ (exprMul_nodup _ _)

theorem exprPow_nodup (a b : PExpr) (n : ℤ) (h : a.pow n = .ok b) (ha : a.words.Nodup) : b.words.Nodup := by
  rw [PExpr.pow] at h
  split_ifs at h with h1 h2
  · injection h with h; subst h; exact fromNumber_nodup _
  · injection h with h; subst h; exact exprPowLoop_nodup _ _ _ ha

theorem toExpr_op (v : PVal) : exprOp v.toExpr = valOp v := by
  cases v with
  | num x => exact fromNumber_op _
  | pauli p => rw [PVal.toExpr, Pauli.toExpr, fromTerm_op, toTerm_op]; rfl
  | term t => exact fromTerm_op t
  | expr e => rfl

theorem lift_val (f : ∀ {α : Type}, [Field α] → α → α → α) (hf : ∀ x y : ℝ, ((f x y : ℝ) : ℂ) = f (x : ℂ) y)
    (a b : PyNum) : (PyNum.lift f a b).val = f a.val b.val := by
  cases a <;> cases b <;> simp [PyNum.lift, PyNum.val, hf]

end Blueqat
