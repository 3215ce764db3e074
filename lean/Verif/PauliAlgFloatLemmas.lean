import Verif.Spec.PauliAlgFloat
import Verif.PauliFormula
import Verif.PauliFloatLemmas
import Mathlib.Tactic.Linarith
import Mathlib.Tactic.Positivity

/-!
# Lists of terms before and after rounding
-/

set_option linter.unusedSimpArgs false
set_option linter.unusedVariables false

namespace Spec

open Blueqat

/-- The value Python computes for a formula in the arithmetic `Q`, as `Formula.py`
(blueqat/pauli.py: the methods called by `-a`, `a + b`, `a - b`, `a * b`, `a / x`, `a ** n`). -/
noncomputable def Formula.flPy (Q : AlgOps) : Formula → Except PyErr PVal
  | .num x => .ok (.num x)
  | .pauli p => .ok (.pauli p)
  | .neg a => do let x ← a.flPy Q; .ok (pvNeg x)
  | .add a b => do let x ← a.flPy Q; let y ← b.flPy Q; .ok (flPvAdd Q.toPauliOps x y)
  | .sub a b => do let x ← a.flPy Q; let y ← b.flPy Q; .ok (flPvSub Q.toPauliOps x y)
  | .mul a b => do let x ← a.flPy Q; let y ← b.flPy Q; .ok (flPvMul Q.toPauliOps x y)
  | .div a x => do let v ← a.flPy Q; flPvDiv Q v x
  | .pow a n => do let v ← a.flPy Q; flPvPow Q v n

end Spec

namespace Blueqat

open Spec

noncomputable section

/-- The sum of the operators of the terms. -/
def sumOp (l : List PTerm) : Operator := (l.map termOp).sum

theorem sumOp_append (l m : List PTerm) : sumOp (l ++ m) = sumOp l + sumOp m := by simp [sumOp]

theorem sumOp_cons (t : PTerm) (l : List PTerm) : sumOp (t :: l) = termOp t + sumOp l := by simp [sumOp]

theorem coeffTotal_append (l m : List PTerm) : coeffTotal (l ++ m) = coeffTotal l + coeffTotal m := by simp [coeffTotal]

theorem coeffTotal_cons (t : PTerm) (l : List PTerm) : coeffTotal (t :: l) = ‖t.coeff‖ + coeffTotal l := by simp [coeffTotal]

theorem coeffTotal_nonneg (l : List PTerm) : 0 ≤ coeffTotal l := List.sum_nonneg (by simp)

/-! ## Sizes of operators -/

theorem _root_.Spec.SizeLe.mono {A : Operator} {r s : ℝ} (h : SizeLe A r) (hs : r ≤ s) : SizeLe A s := by
  obtain ⟨l, h1, h2⟩ := h
  exact ⟨l, h1, h2.trans hs⟩

theorem _root_.Spec.SizeLe.zero {r : ℝ} (hr : 0 ≤ r) : SizeLe 0 r := ⟨[], rfl, by simpa [coeffTotal] using hr⟩

theorem _root_.Spec.SizeLe.sum (l : List PTerm) : SizeLe (sumOp l) (coeffTotal l) := ⟨l, rfl, le_rfl⟩

theorem _root_.Spec.SizeLe.add {A B : Operator} {r s : ℝ} (h : SizeLe A r) (h' : SizeLe B s) : SizeLe (A + B) (r + s) := by
  obtain ⟨l, rfl, h2⟩ := h
  obtain ⟨m, rfl, h4⟩ := h'
  exact ⟨l ++ m, (sumOp_append l m).symm, by rw [coeffTotal_append]; exact add_le_add h2 h4⟩

theorem _root_.Spec.SizeLe.neg {A : Operator} {r : ℝ} (h : SizeLe A r) : SizeLe (-A) r := by
  obtain ⟨l, rfl, h2⟩ := h
  refine ⟨l.map PTerm.neg, (sum_neg_terms l).symm, ?_⟩
  simpa [coeffTotal, PTerm.neg, Function.comp_def] using h2

theorem _root_.Spec.SizeLe.smul {A : Operator} {r : ℝ} (h : SizeLe A r) (z : ℂ) : SizeLe (z • A) (‖z‖ * r) := by
  obtain ⟨l, rfl, h2⟩ := h
  refine ⟨l.map (fun t => ⟨t.ops, t.coeff * z⟩), (sum_scale_terms l z).symm, ?_⟩
  have : coeffTotal (l.map (fun t => ⟨t.ops, t.coeff * z⟩)) = ‖z‖ * coeffTotal l := by
    induction l with
    | nil => simp [coeffTotal]
    | cons t l ih =>
      rw [List.map_cons, coeffTotal_cons, coeffTotal_cons, ih (by rw [coeffTotal_cons] at h2; linarith [norm_nonneg t.coeff]),
        norm_mul]
      ring
  rw [this]
  exact mul_le_mul_of_nonneg_left h2 (norm_nonneg _)

/-- The products of all pairs. -/
def prodTerms (l m : List PTerm) : List PTerm := l.flatMap (fun s => m.map (fun t => s.mul t))

theorem sumOp_prod (l m : List PTerm) : sumOp (prodTerms l m) = sumOp l * sumOp m := by
  induction l with
  | nil => simp [prodTerms, sumOp]
  | cons s l ih =>
    have h1 : sumOp (m.map (fun t => s.mul t)) = termOp s * sumOp m := by
      clear ih
      induction m with
      | nil => simp [sumOp]
      | cons t m ih => rw [List.map_cons, sumOp_cons, sumOp_cons, ih, mul_add, termMul_op]
    show sumOp (m.map (fun t => s.mul t) ++ prodTerms l m) = _
    rw [sumOp_append, h1, ih, sumOp_cons, add_mul]

theorem coeffTotal_prod (l m : List PTerm) : coeffTotal (prodTerms l m) = coeffTotal l * coeffTotal m := by
  induction l with
  | nil => simp [prodTerms, coeffTotal]
  | cons s l ih =>
    have h1 : coeffTotal (m.map (fun t => s.mul t)) = ‖s.coeff‖ * coeffTotal m := by
      clear ih
      induction m with
      | nil => simp [coeffTotal]
      | cons t m ih => rw [List.map_cons, coeffTotal_cons, coeffTotal_cons, ih, PTerm.mul, norm_mul, mul_add]
    show coeffTotal (m.map (fun t => s.mul t) ++ prodTerms l m) = _
    rw [coeffTotal_append, h1, ih, coeffTotal_cons, add_mul]

theorem prodTerms_length (l m : List PTerm) : (prodTerms l m).length = l.length * m.length := by
  simp [prodTerms, List.length_flatMap]

theorem _root_.Spec.SizeLe.mul {A B : Operator} {r s : ℝ} (hr : 0 ≤ r) (h : SizeLe A r) (h' : SizeLe B s) : SizeLe (A * B) (r * s) := by
  obtain ⟨l, rfl, h2⟩ := h
  obtain ⟨m, rfl, h4⟩ := h'
  refine ⟨prodTerms l m, (sumOp_prod l m).symm, ?_⟩
  rw [coeffTotal_prod]
  exact mul_le_mul h2 h4 (coeffTotal_nonneg m) hr

theorem wordOp_le_one (w : List POp) : ∀ ψ : Vec, (∀ i, ‖ψ i‖ ≤ 1) → ∀ i, ‖wordOp w ψ i‖ ≤ 1 := by
  induction w with
  | nil => intro ψ h i; rw [wordOp_nil]; exact h i
  | cons o w ih =>
    intro ψ h i
    rw [wordOp_cons]
    show ‖opOp o (wordOp w ψ) i‖ ≤ 1
    have := ih ψ h
    generalize wordOp w ψ = φ at this
    obtain ⟨p, n⟩ := o
    cases p <;> simp only [opOp, letterM, matAt_apply, app, mX, mY, mZ] <;> split_ifs <;>
      simpa using this _

/-- Entries are at most the size. -/
theorem _root_.Spec.SizeLe.entry {A : Operator} {r : ℝ} (h : SizeLe A r) (i j : ℕ) : ‖A (basis j) i‖ ≤ r := by
  obtain ⟨l, rfl, h2⟩ := h
  refine le_trans ?_ h2
  clear h2
  induction l with
  | nil => simp [coeffTotal]
  | cons t l ih =>
    rw [List.map_cons, List.sum_cons, coeffTotal_cons, LinearMap.add_apply, Pi.add_apply]
    refine (norm_add_le _ _).trans (add_le_add ?_ ih)
    rw [termOp, LinearMap.smul_apply, Pi.smul_apply, smul_eq_mul, norm_mul]
    refine mul_le_of_le_one_right (norm_nonneg _) ?_
    refine wordOp_le_one _ _ (fun k => ?_) i
    rw [basis]
    split_ifs <;> simp

/-! ## Rounding -/

/-- `m` is `l` after at most `k` roundings of each coefficient. -/
structure Rounded (δ : ℝ) (k : ℕ) (l m : List PTerm) : Prop where
  near : SizeLe (sumOp m - sumOp l) (((1 + δ) ^ k - 1) * coeffTotal l)
  total : coeffTotal m ≤ (1 + δ) ^ k * coeffTotal l

variable {δ : ℝ}

theorem Rounded.refl (l : List PTerm) : Rounded δ 0 l l := by
  refine ⟨?_, by simp⟩
  rw [sub_self]
  exact .zero (by simp)

theorem Rounded.of_eq {l m : List PTerm} (h1 : sumOp m = sumOp l) (h2 : coeffTotal m ≤ coeffTotal l) : Rounded δ 0 l m := by
  refine ⟨?_, by simpa using h2⟩
  rw [h1, sub_self]
  exact .zero (by simp)

theorem Rounded.mono (hδ : 0 ≤ δ) {k k' : ℕ} (hk : k ≤ k') {l m : List PTerm} (h : Rounded δ k l m) : Rounded δ k' l m := by
  have h1 := pow_le_pow_right₀ (show 1 ≤ 1 + δ by linarith) hk
  have h2 := coeffTotal_nonneg l
  exact ⟨h.near.mono (mul_le_mul_of_nonneg_right (by linarith) h2), h.total.trans (mul_le_mul_of_nonneg_right h1 h2)⟩

theorem Rounded.trans (hδ : 0 ≤ δ) {k k' : ℕ} {l m n : List PTerm} (h : Rounded δ k l m) (h' : Rounded δ k' m n) :
    Rounded δ (k + k') l n := by
  have h1 : 1 ≤ (1 + δ) ^ k' := one_le_pow₀ (by linarith)
  constructor
  · have e : sumOp n - sumOp l = (sumOp n - sumOp m) + (sumOp m - sumOp l) := by abel
    rw [e]
    refine (h'.near.add h.near).mono ?_
    have := mul_le_mul_of_nonneg_left h.total (show 0 ≤ (1 + δ) ^ k' - 1 by linarith)
    rw [pow_add]
    nlinarith
  · refine h'.total.trans ?_
    have := mul_le_mul_of_nonneg_left h.total (show 0 ≤ (1 + δ) ^ k' by linarith)
    rw [pow_add]
    linarith

theorem Rounded.append (hδ : 0 ≤ δ) {k : ℕ} {l m l' m' : List PTerm} (h : Rounded δ k l m) (h' : Rounded δ k l' m') :
    Rounded δ k (l ++ l') (m ++ m') := by
  constructor
  · rw [sumOp_append, sumOp_append, coeffTotal_append, mul_add,
      show sumOp m + sumOp m' - (sumOp l + sumOp l') = (sumOp m - sumOp l) + (sumOp m' - sumOp l') by abel]
    exact h.near.add h'.near
  · rw [coeffTotal_append, coeffTotal_append, mul_add]
    exact add_le_add h.total h'.total

/-- The same words with coefficients rounded once. -/
theorem Rounded.terms (hδ : 0 ≤ δ) {k : ℕ} {l m : List PTerm}
    (h : List.Forall₂ (fun s t : PTerm => t.ops = s.ops ∧ ‖t.coeff - s.coeff‖ ≤ ((1 + δ) ^ k - 1) * ‖s.coeff‖) l m) :
    Rounded δ k l m := by
  induction h with
  | nil => exact (Rounded.refl _).mono hδ (Nat.zero_le _)
  | @cons s t l m hst _ ih =>
    refine Rounded.append hδ (l := [s]) (m := [t]) ?_ ih
    obtain ⟨w, c⟩ := s
    obtain ⟨w', c'⟩ := t
    obtain ⟨rfl, hc⟩ := hst
    simp only at hc
    constructor
    · refine ⟨[⟨w', c' - c⟩], ?_, ?_⟩
      · simp [sumOp, termOp]
        exact (sub_smul _ _ _).symm
      · simpa [coeffTotal] using hc
    · have := norm_add_le (c' - c) c
      rw [sub_add_cancel] at this
      simp only [coeffTotal, List.map_cons, List.map_nil, List.sum_cons, List.sum_nil, add_zero]
      linarith

theorem Rounded.filter (l : List PTerm) : Rounded δ 0 l (l.filter (fun t => decide (t.coeff ≠ 0))) := by
  refine .of_eq (filter_ne_zero_sum l) ?_
  induction l with
  | nil => simp
  | cons t l ih =>
    rw [List.filter_cons, coeffTotal_cons]
    split_ifs
    · rw [coeffTotal_cons]; linarith
    · linarith [norm_nonneg t.coeff]

/-! ## Dictionaries -/

/-- The items of a dictionary as terms. -/
def dictTerms (d : PyDict (List POp) ℂ) : List PTerm := d.map (fun p => ⟨p.1, p.2⟩)

theorem fromTermsDict_rounded (d : PyDict (List POp) ℂ) : Rounded δ 0 (dictTerms d) (PExpr.fromTermsDict d).terms := by
  have : (PExpr.fromTermsDict d).terms = (dictTerms d).filter (fun t => decide (t.coeff ≠ 0)) := by
    rw [PExpr.fromTermsDict, dictTerms, List.filter_map]
    rfl
  rw [this]
  exact Rounded.filter _

theorem dictTerms_set_none {d : PyDict (List POp) ℂ} {w : List POp} (h : d.get w = none) (x : ℂ) :
    dictTerms (d.set w x) = dictTerms d ++ [⟨w, x⟩] := by
  induction d with
  | nil => simp [PyDict.set, dictTerms]
  | cons p d ih =>
    obtain ⟨k, v⟩ := p
    rw [PyDict.get] at h
    split_ifs at h with hk
    rw [PyDict.set, if_neg hk]
    have := ih h
    simp only [dictTerms, List.map_cons, List.cons_append] at this ⊢
    rw [this]

/-- Setting an existing key to a rounded sum. -/
theorem dictTerms_set_some (hδ : 0 ≤ δ) {d : PyDict (List POp) ℂ} {w : List POp} {v c x : ℂ} (h : d.get w = some v)
    (hx : ‖x - (v + c)‖ ≤ δ * ‖v + c‖) : Rounded δ 1 (dictTerms d ++ [⟨w, c⟩]) (dictTerms (d.set w x)) := by
  induction d with
  | nil => simp [PyDict.get] at h
  | cons p d ih =>
    obtain ⟨k, u⟩ := p
    rw [PyDict.get] at h
    rw [PyDict.set]
    split_ifs at h ⊢ with hk
    · injection h with h
      subst h hk
      show Rounded δ 1 (⟨k, u⟩ :: dictTerms d ++ [⟨k, c⟩]) ([⟨k, x⟩] ++ dictTerms d)
      have h1 : Rounded δ 0 (⟨k, u⟩ :: dictTerms d ++ [⟨k, c⟩]) ([⟨k, u + c⟩] ++ dictTerms d) := by
        refine .of_eq ?_ ?_
        · simp [sumOp, termOp, add_smul]; abel
        · simp only [coeffTotal_append, coeffTotal_cons, List.cons_append]
          have := norm_add_le u c
          simp [coeffTotal]
          linarith
      refine (h1.trans hδ (Rounded.append hδ (k := 1) (Rounded.terms hδ ?_) ((Rounded.refl _).mono hδ (Nat.zero_le _)))).mono hδ
        (by norm_num)
      refine .cons ⟨rfl, ?_⟩ .nil
      simpa using hx
    · exact Rounded.append hδ (l := [⟨k, u⟩]) (m := [⟨k, u⟩]) ((Rounded.refl _).mono hδ (Nat.zero_le _)) (ih h)

theorem dictTerms_del_zero {d : PyDict (List POp) ℂ} (hd : d.WF) {w : List POp} (h : d.get w = some 0) :
    Rounded δ 0 (dictTerms d) (dictTerms (d.del w)) := by
  refine .of_eq ?_ ?_
  · have := dictOp_del d hd w
    rw [h] at this
    simp only [Option.getD_some, zero_smul, sub_zero] at this
    have e : ∀ d : PyDict (List POp) ℂ, sumOp (dictTerms d) = dictOp d := by
      intro d
      simp [sumOp, dictTerms, dictOp, termOp, Function.comp_def]
    rw [e, e, this]
  · rw [PyDict.del]
    clear h hd
    induction d with
    | nil => simp
    | cons p d ih =>
      rw [List.filter_cons]
      split_ifs
      · simp only [dictTerms, List.map_cons, coeffTotal_cons] at ih ⊢; linarith
      · simp only [dictTerms, List.map_cons, coeffTotal_cons] at ih ⊢
        linarith [norm_nonneg p.2]

theorem flAddStep_rounded {P : PauliOps} (hP : PauliAccurate P δ) (hδ : 0 ≤ δ) {d : PyDict (List POp) ℂ} (hd : d.WF) (t : PTerm) :
    Rounded δ 1 (dictTerms d ++ [t]) (dictTerms (flAddStep P d t)) ∧ (flAddStep P d t).WF := by
  rw [flAddStep]
  rcases hg : d.get t.ops with _ | v
  · simp only [hg]
    refine ⟨?_, PyDict.wf_set hd _ _⟩
    rw [dictTerms_set_none hg]
    exact (Rounded.refl _).mono hδ (Nat.zero_le _)
  · simp only [hg]
    have h1 := dictTerms_set_some hδ hg (hP.add v t.coeff)
    have hw := PyDict.wf_set hd t.ops (P.add v t.coeff)
    split_ifs with h0
    · refine ⟨?_, PyDict.wf_del hw _⟩
      exact h1.trans hδ (dictTerms_del_zero hw (by rw [PyDict.get_set, if_pos rfl, h0]))
    · exact ⟨h1, hw⟩

theorem flDictAdd_rounded {P : PauliOps} (hP : PauliAccurate P δ) (hδ : 0 ≤ δ) {d : PyDict (List POp) ℂ} (hd : d.WF) (t : PTerm) :
    Rounded δ 1 (dictTerms d ++ [t]) (dictTerms (flDictAdd P d t)) ∧ (flDictAdd P d t).WF := by
  rw [flDictAdd]
  refine ⟨?_, PyDict.wf_set hd _ _⟩
  rcases hg : d.get t.ops with _ | v
  · rw [dictTerms_set_none hg]
    refine Rounded.append hδ ((Rounded.refl _).mono hδ (Nat.zero_le _)) (Rounded.terms hδ (.cons ⟨rfl, ?_⟩ .nil))
    have := hP.add 0 t.coeff
    simpa using this
  · exact dictTerms_set_some hδ hg (hP.add v t.coeff)

theorem foldl_rounded (hδ : 0 ≤ δ) (f : PyDict (List POp) ℂ → PTerm → PyDict (List POp) ℂ)
    (hf : ∀ d t, d.WF → Rounded δ 1 (dictTerms d ++ [t]) (dictTerms (f d t)) ∧ (f d t).WF) (ts : List PTerm) :
    ∀ d : PyDict (List POp) ℂ, d.WF → Rounded δ ts.length (dictTerms d ++ ts) (dictTerms (ts.foldl f d)) ∧ (ts.foldl f d).WF := by
  induction ts with
  | nil => intro d hd; simpa using ⟨Rounded.refl _, hd⟩
  | cons t ts ih =>
    intro d hd
    obtain ⟨h1, h2⟩ := hf d t hd
    obtain ⟨h3, h4⟩ := ih _ h2
    refine ⟨?_, h4⟩
    rw [List.foldl_cons, List.length_cons, add_comm]
    have h5 := Rounded.append hδ h1 ((Rounded.refl ts).mono hδ (Nat.zero_le 1))
    rw [List.append_assoc, List.singleton_append] at h5
    exact h5.trans hδ h3

theorem termsToDict_terms (e : PExpr) (h : e.words.Nodup) :
    dictTerms e.termsToDict = e.terms.filter (fun t => decide (t.coeff ≠ 0)) := by
  have : ∀ (ts : List PTerm) (d : PyDict (List POp) ℂ), (∀ t ∈ ts, t.ops ∉ d.map Prod.fst) → (ts.map PTerm.ops).Nodup →
      dictTerms (ts.foldl (fun d t => d.set t.ops t.coeff) d) = dictTerms d ++ ts := by
    intro ts
    induction ts with
    | nil => simp
    | cons t ts ih =>
      intro d hd hn
      rw [List.map_cons, List.nodup_cons] at hn
      rw [List.foldl_cons, ih _ ?_ hn.2, dictTerms_set_none (PyDict.get_eq_none.2 (hd t (by simp)))]
      · simp
      · intro s hs
        rw [PyDict.mem_map_fst_set, not_or]
        exact ⟨fun h => hn.1 (h ▸ List.mem_map_of_mem hs), hd s (List.mem_cons_of_mem _ hs)⟩
  rw [PExpr.termsToDict, this _ _ (by simp) (h.sublist (List.Sublist.map _ List.filter_sublist))]
  rfl

/-! ## Operations -/

theorem flAdd_rounded {P : PauliOps} (hP : PauliAccurate P δ) (hδ : 0 ≤ δ) (a b : PExpr) (h : a.words.Nodup) :
    Rounded δ b.terms.length (a.terms ++ b.terms) (a.flAdd P b).terms := by
  obtain ⟨h1, h2⟩ := foldl_rounded hδ (flAddStep P) (fun d t hd => flAddStep_rounded hP hδ hd t) b.terms a.termsToDict
    (termsToDict_wf a)
  rw [termsToDict_terms a h] at h1
  have h3 := Rounded.append hδ (Rounded.filter (δ := δ) a.terms) (Rounded.refl b.terms)
  have := (h3.trans hδ h1).trans hδ (fromTermsDict_rounded _)
  simpa [PExpr.flAdd] using this

theorem flSubStep_eq (P : PauliOps) (d : PyDict (List POp) ℂ) (t : PTerm) : flSubStep P d t = flAddStep P d t.neg := by
  simp only [flSubStep, flAddStep, PTerm.neg]
  cases d.get t.ops <;> rfl

theorem flSub_eq (P : PauliOps) (a b : PExpr) : a.flSub P b = a.flAdd P b.neg := by
  rw [PExpr.flSub, PExpr.flAdd, PExpr.neg, List.foldl_map, show flSubStep P = fun d t => flAddStep P d t.neg from
    funext fun d => funext fun t => flSubStep_eq P d t]

theorem flMul_terms_rounded {P : PauliOps} (hP : PauliAccurate P δ) (hδ : 0 ≤ δ) (l m : List PTerm) :
    Rounded δ 1 (prodTerms l m) (l.flatMap (fun s => m.map (fun t => s.flMul P t))) := by
  apply Rounded.terms hδ
  rw [prodTerms]
  induction l with
  | nil => simp
  | cons s l ih =>
    simp only [List.flatMap_cons]
    refine List.rel_append ?_ ih
    clear ih
    induction m with
    | nil => simp
    | cons t m ih =>
      refine .cons ⟨rfl, ?_⟩ ih
      simpa [PTerm.flMul, PTerm.mul] using hP.mul s.coeff t.coeff

theorem flMul_rounded {P : PauliOps} (hP : PauliAccurate P δ) (hδ : 0 ≤ δ) (a b : PExpr) :
    Rounded δ (1 + a.terms.length * b.terms.length) (prodTerms a.terms b.terms) (a.flMul P b).terms := by
  obtain ⟨h1, h2⟩ := foldl_rounded hδ (flDictAdd P) (fun d t hd => flDictAdd_rounded hP hδ hd t)
    (a.terms.flatMap (fun s => b.terms.map (fun t => s.flMul P t))) [] wf_nil
  have h3 := ((flMul_terms_rounded hP hδ a.terms b.terms).trans hδ h1).trans hδ (fromTermsDict_rounded _)
  have hlen : (a.terms.flatMap (fun s => b.terms.map (fun t => s.flMul P t))).length = a.terms.length * b.terms.length := by
    simp [List.length_flatMap]
  rw [hlen] at h3
  simpa [PExpr.flMul] using h3

/-! ## Approximations of an operator -/

/-- The terms sum up to `A`, an operator of size `s`, up to `k` roundings. -/
structure NearOp (δ : ℝ) (k : ℕ) (s : ℝ) (l : List PTerm) (A : Operator) : Prop where
  near : SizeLe (sumOp l - A) (((1 + δ) ^ k - 1) * s)
  size : SizeLe A s
  total : coeffTotal l ≤ (1 + δ) ^ k * s

theorem NearOp.nonneg {k : ℕ} {s : ℝ} {l : List PTerm} {A : Operator} (h : NearOp δ k s l A) : 0 ≤ s := by
  obtain ⟨m, _, hm⟩ := h.size
  exact (coeffTotal_nonneg m).trans hm

theorem NearOp.of_eq {s : ℝ} {l : List PTerm} {A : Operator} (h1 : sumOp l = A) (h2 : coeffTotal l ≤ s) : NearOp δ 0 s l A := by
  refine ⟨?_, ⟨l, h1.symm, h2⟩, by simpa using h2⟩
  rw [h1, sub_self]
  exact .zero (by simp)

theorem NearOp.mono (hδ : 0 ≤ δ) {k k' : ℕ} {s : ℝ} {l : List PTerm} {A : Operator} (h : NearOp δ k s l A) (hk : k ≤ k') :
    NearOp δ k' s l A := by
  have h1 := pow_le_pow_right₀ (show 1 ≤ 1 + δ by linarith) hk
  exact ⟨h.near.mono (mul_le_mul_of_nonneg_right (by linarith) h.nonneg), h.size,
    h.total.trans (mul_le_mul_of_nonneg_right h1 h.nonneg)⟩

theorem NearOp.rounded (hδ : 0 ≤ δ) {k m : ℕ} {s : ℝ} {l l' : List PTerm} {A : Operator} (h : NearOp δ k s l A)
    (h' : Rounded δ m l l') : NearOp δ (k + m) s l' A := by
  have h1 : 1 ≤ (1 + δ) ^ m := one_le_pow₀ (by linarith)
  refine ⟨?_, h.size, ?_⟩
  · rw [show sumOp l' - A = (sumOp l' - sumOp l) + (sumOp l - A) by abel]
    refine (h'.near.add h.near).mono ?_
    have := mul_le_mul_of_nonneg_left h.total (show 0 ≤ (1 + δ) ^ m - 1 by linarith)
    rw [pow_add]
    nlinarith
  · refine h'.total.trans ?_
    have := mul_le_mul_of_nonneg_left h.total (show 0 ≤ (1 + δ) ^ m by linarith)
    rw [pow_add]
    linarith

theorem NearOp.append {k : ℕ} {s s' : ℝ} {l l' : List PTerm} {A A' : Operator} (h : NearOp δ k s l A)
    (h' : NearOp δ k s' l' A') : NearOp δ k (s + s') (l ++ l') (A + A') := by
  refine ⟨?_, h.size.add h'.size, ?_⟩
  · rw [sumOp_append, mul_add, show sumOp l + sumOp l' - (A + A') = (sumOp l - A) + (sumOp l' - A') by abel]
    exact h.near.add h'.near
  · rw [coeffTotal_append, mul_add]
    exact add_le_add h.total h'.total

theorem NearOp.smul {k : ℕ} {s : ℝ} {l : List PTerm} {A : Operator} (h : NearOp δ k s l A) (z : ℂ) {l' : List PTerm}
    (h1 : sumOp l' = z • sumOp l) (h2 : coeffTotal l' ≤ ‖z‖ * coeffTotal l) : NearOp δ k (‖z‖ * s) l' (z • A) := by
  refine ⟨?_, h.size.smul z, ?_⟩
  · rw [h1, show z • sumOp l - z • A = z • (sumOp l - A) from (smul_sub _ _ _).symm]
    exact (h.near.smul z).mono (by linarith)
  · refine h2.trans ?_
    have := mul_le_mul_of_nonneg_left h.total (norm_nonneg z)
    linarith

theorem NearOp.mul (hδ : 0 ≤ δ) {k k' : ℕ} {s s' : ℝ} {l l' : List PTerm} {A A' : Operator} (h : NearOp δ k s l A)
    (h' : NearOp δ k' s' l' A') : NearOp δ (k + k') (s * s') (prodTerms l l') (A * A') := by
  have h1 : 1 ≤ (1 + δ) ^ k := one_le_pow₀ (by linarith)
  have hs := h.nonneg
  refine ⟨?_, h.size.mul hs h'.size, ?_⟩
  · rw [sumOp_prod, show sumOp l * sumOp l' - A * A' = (sumOp l - A) * sumOp l' + A * (sumOp l' - A') by
      rw [sub_mul, mul_sub]; abel]
    have e1 : 0 ≤ ((1 + δ) ^ k - 1) * s := mul_nonneg (by linarith) hs
    refine ((Spec.SizeLe.mul e1 h.near (.sum l')).add (h.size.mul hs h'.near)).mono ?_
    have := mul_le_mul_of_nonneg_left h'.total e1
    rw [pow_add]
    nlinarith
  · rw [coeffTotal_prod, pow_add]
    have := mul_le_mul h.total h'.total (coeffTotal_nonneg l') (mul_nonneg (by linarith) hs)
    linarith

/-- The products of all `n`-tuples. -/
def powTerms (l : List PTerm) : ℕ → List PTerm
  | 0 => [⟨[], 1⟩]
  | n + 1 => prodTerms (powTerms l n) l

theorem sumOp_pow (l : List PTerm) (n : ℕ) : sumOp (powTerms l n) = sumOp l ^ n := by
  induction n with
  | zero => simp [powTerms, sumOp, termOp, wordOp_nil]
  | succ n ih => rw [powTerms, sumOp_prod, ih, pow_succ]

theorem coeffTotal_pow (l : List PTerm) (n : ℕ) : coeffTotal (powTerms l n) = coeffTotal l ^ n := by
  induction n with
  | zero => simp [powTerms, coeffTotal]
  | succ n ih => rw [powTerms, coeffTotal_prod, ih, pow_succ]

theorem NearOp.pow (hδ : 0 ≤ δ) {k : ℕ} {s : ℝ} {l : List PTerm} {A : Operator} (h : NearOp δ k s l A) (n : ℕ) :
    NearOp δ (n * k) (s ^ n) (powTerms l n) (A ^ n) := by
  induction n with
  | zero => simpa using NearOp.of_eq (δ := δ) (s := 1) (l := powTerms l 0) (A := 1) (by rw [sumOp_pow]; simp) (by rw [coeffTotal_pow]; simp)
  | succ n ih =>
    rw [pow_succ, pow_succ, powTerms, show (n + 1) * k = n * k + k by ring]
    exact ih.mul hδ h

/-! ## Values -/

/-- The terms of an operand. -/
def PVal.termsOf : PVal → List PTerm
  | .num x => [⟨[], x.val⟩]
  | .pauli p => [p.toTerm]
  | .term t => [t]
  | .expr e => e.terms

theorem sumOp_termsOf (v : PVal) : sumOp v.termsOf = valOp v := by
  cases v with
  | num x => simp [PVal.termsOf, sumOp, valOp, termOp, wordOp_nil]
  | pauli p => simp [PVal.termsOf, sumOp, valOp, toTerm_op]
  | term t => simp [PVal.termsOf, sumOp, valOp]
  | expr e => rfl

theorem fromPauli_total (p : Pauli) (c : ℂ) : coeffTotal [PTerm.fromPauli p c] = ‖c‖ := by
  cases p with
  | I => simp [PTerm.fromPauli, coeffTotal]
  | op o => rw [PTerm.fromPauli]; split_ifs <;> simp [coeffTotal]

theorem toExpr_rounded (v : PVal) : Rounded δ 0 v.termsOf v.toExpr.terms ∧ v.toExpr.terms.length ≤ v.termsOf.length := by
  have key : ∀ t : PTerm, Rounded δ 0 [t] (PExpr.fromTerm t).terms ∧ (PExpr.fromTerm t).terms.length ≤ 1 := by
    intro t
    rw [PExpr.fromTerm]
    split_ifs with h
    · exact ⟨.refl _, by simp⟩
    · rw [not_not] at h
      refine ⟨.of_eq ?_ ?_, by simp [PExpr.zero]⟩
      · simp [sumOp, PExpr.zero, termOp, h]
      · simp [coeffTotal, PExpr.zero]
  cases v with
  | num x =>
    simp only [PVal.toExpr, PVal.termsOf, PExpr.fromNumber]
    split_ifs with h
    · exact key _
    · rw [not_not] at h
      refine ⟨.of_eq ?_ ?_, by simp [PExpr.zero]⟩
      · simp [sumOp, PExpr.zero, termOp, h]
      · simp [coeffTotal, PExpr.zero]
  | pauli p => exact key _
  | term t => exact key t
  | expr e => exact ⟨.refl _, le_rfl⟩

/-! ### Sums -/

theorem length_set_le (d : PyDict (List POp) ℂ) (w : List POp) (x : ℂ) : (d.set w x).length ≤ d.length + 1 := by
  induction d with
  | nil => simp [PyDict.set]
  | cons p d ih => rw [PyDict.set]; split_ifs <;> simp <;> omega

theorem foldl_dict_length (f : PyDict (List POp) ℂ → PTerm → PyDict (List POp) ℂ) (hf : ∀ d t, (f d t).length ≤ d.length + 1)
    (ts : List PTerm) : ∀ d, (ts.foldl f d).length ≤ d.length + ts.length := by
  induction ts with
  | nil => intro d; simp
  | cons t ts ih => intro d; have := ih (f d t); have := hf d t; simp only [List.foldl_cons, List.length_cons]; omega

theorem flAddStep_length (P : PauliOps) (d : PyDict (List POp) ℂ) (t : PTerm) : (flAddStep P d t).length ≤ d.length + 1 := by
  rw [flAddStep]
  rcases hg : d.get t.ops with _ | v <;> simp only [hg]
  · exact length_set_le _ _ _
  · split_ifs
    · exact (List.length_filter_le _ _).trans (length_set_le _ _ _)
    · exact length_set_le _ _ _

theorem fromTermsDict_length (d : PyDict (List POp) ℂ) : (PExpr.fromTermsDict d).terms.length ≤ d.length := by
  rw [PExpr.fromTermsDict, List.length_map]
  exact List.length_filter_le _ _

theorem flAdd_length (P : PauliOps) (a b : PExpr) : (a.flAdd P b).terms.length ≤ a.terms.length + b.terms.length := by
  rw [PExpr.flAdd]
  refine (fromTermsDict_length _).trans ((foldl_dict_length _ (flAddStep_length P) _ _).trans (Nat.add_le_add_right ?_ _))
  rw [PExpr.termsToDict]
  refine (foldl_dict_length (fun d t => d.set t.ops t.coeff) (fun d t => length_set_le _ _ _) _ _).trans ?_
  simpa using List.length_filter_le _ _

theorem flMul_length (P : PauliOps) (a b : PExpr) : (a.flMul P b).terms.length ≤ a.terms.length * b.terms.length := by
  rw [PExpr.flMul]
  refine (fromTermsDict_length _).trans ((foldl_dict_length _ (fun d t => ?_) _ _).trans ?_)
  · exact length_set_le _ _ _
  · simp [List.length_flatMap]

theorem re_near {z : ℂ} {x r : ℝ} (h : ‖z - x‖ ≤ r) : ‖((z.re : ℝ) : ℂ) - (x : ℂ)‖ ≤ r := by
  refine le_trans ?_ h
  rw [← Complex.ofReal_sub, Complex.norm_real]
  have := Complex.abs_re_le_norm (z - x)
  simpa using this

/-- Arithmetic of numbers is as accurate as that of complex numbers. -/
theorem flLift_near {f g : ℂ → ℂ → ℂ} (hf : ∀ a b, ‖f a b - g a b‖ ≤ δ * ‖g a b‖) (hg : ∀ x y : ℝ, ∃ z : ℝ, g x y = z) (x y : PyNum) :
    ‖(PyNum.flLift f x y).val - g x.val y.val‖ ≤ δ * ‖g x.val y.val‖ := by
  cases x <;> cases y <;> try exact hf _ _
  rename_i x y
  obtain ⟨z, hz⟩ := hg x y
  have := hf x y
  show ‖(((f x y).re : ℝ) : ℂ) - g x y‖ ≤ δ * ‖g x y‖
  rw [hz] at this ⊢
  exact re_near this

theorem flPvAdd_rounded {P : PauliOps} (hP : PauliAccurate P δ) (hδ : 0 ≤ δ) (a b : PVal) (h : a.toExpr.words.Nodup) :
    Rounded δ b.termsOf.length (a.termsOf ++ b.termsOf) (flPvAdd P a b).termsOf ∧
    (flPvAdd P a b).termsOf.length ≤ a.termsOf.length + b.termsOf.length := by
  have key : Rounded δ b.termsOf.length (a.termsOf ++ b.termsOf) (a.toExpr.flAdd P b.toExpr).terms ∧
      (a.toExpr.flAdd P b.toExpr).terms.length ≤ a.termsOf.length + b.termsOf.length := by
    have ha := toExpr_rounded (δ := δ) a
    have hb := toExpr_rounded (δ := δ) b
    refine ⟨((Rounded.append hδ ha.1 hb.1).trans hδ (flAdd_rounded hP hδ a.toExpr b.toExpr h)).mono hδ ?_,
      (flAdd_length P _ _).trans (Nat.add_le_add ha.2 hb.2)⟩
    have := hb.2
    omega
  cases a with
  | num x =>
    cases b with
    | num y =>
      have h1 := flLift_near hP.add (fun x y => ⟨x + y, by push_cast; rfl⟩) x y
      refine ⟨?_, by simp [flPvAdd, PVal.termsOf]⟩
      have h2 : Rounded δ 0 ([⟨[], x.val⟩] ++ [⟨[], y.val⟩]) [⟨[], x.val + y.val⟩] := by
        refine .of_eq ?_ ?_
        · simp [sumOp, termOp, add_smul]
        · have := norm_add_le x.val y.val
          simpa [coeffTotal] using this
      have h3 : Rounded δ 1 [⟨[], x.val + y.val⟩] [⟨[], (PyNum.flLift P.add x y).val⟩] :=
        Rounded.terms hδ (.cons ⟨rfl, by simpa using h1⟩ .nil)
      exact (h2.trans hδ h3).mono hδ (le_of_eq rfl)
    | _ => exact key
  | _ => exact key

theorem toExpr_neg_terms (v : PVal) : (pvNeg v).toExpr.terms = v.toExpr.neg.terms := by
  cases v with
  | num x =>
    cases x <;> simp only [pvNeg, PVal.toExpr, PExpr.fromNumber, PyNum.val, Complex.ofReal_neg, neg_ne_zero, ne_eq, neg_eq_zero] <;>
      split_ifs <;> simp [PExpr.fromTerm, PTerm.fromPauli, PExpr.neg, PTerm.neg, PExpr.zero, *]
  | pauli p =>
    cases p <;> simp [pvNeg, PVal.toExpr, Pauli.toExpr, Pauli.toTerm, PExpr.fromTerm, PTerm.fromPauli, PExpr.neg, PTerm.neg]
  | term t =>
    by_cases h : t.coeff = 0 <;> simp [pvNeg, PVal.toExpr, PExpr.fromTerm, PExpr.neg, PTerm.neg, PExpr.zero, h]
  | expr e => rfl

theorem termsOf_neg (v : PVal) : (pvNeg v).termsOf = v.termsOf.map PTerm.neg := by
  cases v with
  | num x => cases x <;> simp [pvNeg, PVal.termsOf, PTerm.neg, PyNum.val]
  | pauli p => cases p <;> simp [pvNeg, PVal.termsOf, PTerm.neg, Pauli.toTerm, PTerm.fromPauli]
  | term t => rfl
  | expr e => rfl

/-- Subtracting is adding the negative. -/
theorem flPvSub_eq (P : PauliOps) (a b : PVal) : flPvSub P a b = flPvAdd P a (pvNeg b) := by
  have key : a.toExpr.flSub P b.toExpr = a.toExpr.flAdd P (pvNeg b).toExpr := by
    rw [flSub_eq]
    congr 1
    have := toExpr_neg_terms b
    cases hb : (pvNeg b).toExpr
    cases hc : b.toExpr.neg
    rw [hb, hc] at this
    simp only at this
    rw [this]
  cases a with
  | num x =>
    cases b with
    | num y =>
      cases x <;> cases y <;> simp [flPvSub, flPvAdd, pvNeg, PyNum.flLift, PyNum.val]
    | pauli p => simp only [flPvSub, key]; rfl
    | term p => simp only [flPvSub, key]; rfl
    | expr p => simp only [flPvSub, key]; rfl
  | pauli p => cases b with
    | num y => cases y <;> (simp only [flPvSub, key]; rfl)
    | _ => simp only [flPvSub, key]; rfl
  | term p => cases b with
    | num y => cases y <;> (simp only [flPvSub, key]; rfl)
    | _ => simp only [flPvSub, key]; rfl
  | expr p => cases b with
    | num y => cases y <;> (simp only [flPvSub, key]; rfl)
    | _ => simp only [flPvSub, key]; rfl

/-! ### Products -/

theorem scale_total (l : List PTerm) (z : ℂ) : coeffTotal (l.map (fun t => ⟨t.ops, t.coeff * z⟩)) = ‖z‖ * coeffTotal l := by
  induction l with
  | nil => simp [coeffTotal]
  | cons t l ih => rw [List.map_cons, coeffTotal_cons, coeffTotal_cons, ih, norm_mul]; ring

theorem sumOp_scale (l : List PTerm) (z : ℂ) : sumOp (l.map (fun t => ⟨t.ops, t.coeff * z⟩)) = z • sumOp l := sum_scale_terms l z

theorem sumOp_number (z : ℂ) : sumOp [⟨[], z⟩] = z • (1 : Operator) := by simp [sumOp, termOp, wordOp_nil]

theorem coeffTotal_singleton (t : PTerm) : coeffTotal [t] = ‖t.coeff‖ := by simp [coeffTotal]

theorem scale_rounded {P : PauliOps} (hP : PauliAccurate P δ) (hδ : 0 ≤ δ) (l : List PTerm) (z : ℂ) :
    Rounded δ 1 (l.map (fun t => ⟨t.ops, t.coeff * z⟩)) (l.map (fun t => ⟨t.ops, P.mul t.coeff z⟩)) := by
  apply Rounded.terms hδ
  induction l with
  | nil => simp
  | cons t l ih => exact .cons ⟨rfl, by simpa using hP.mul t.coeff z⟩ ih

theorem flScale_rounded {P : PauliOps} (hP : PauliAccurate P δ) (hδ : 0 ≤ δ) (e : PExpr) (z : ℂ) :
    Rounded δ 1 (e.terms.map (fun t => ⟨t.ops, t.coeff * z⟩)) (e.flScale P z).terms ∧ (e.flScale P z).terms.length ≤ e.terms.length := by
  rw [PExpr.flScale]
  split_ifs with h
  · have h0 : (PExpr.fromNumber 0).terms = [] := by simp [PExpr.fromNumber, PExpr.zero]
    rw [h0]
    refine ⟨(Rounded.of_eq ?_ ?_).mono hδ (Nat.zero_le 1), by simp⟩
    · rw [sumOp_scale, h, zero_smul]; rfl
    · exact coeffTotal_nonneg _
  · refine ⟨(scale_rounded hP hδ e.terms z).trans hδ (Rounded.filter _), ?_⟩
    exact (List.length_filter_le _ _).trans (by simp)

theorem flPvMul_rounded {P : PauliOps} (hP : PauliAccurate P δ) (hδ : 0 ≤ δ) (a b : PVal) :
    Rounded δ (1 + a.termsOf.length * b.termsOf.length) (prodTerms a.termsOf b.termsOf) (flPvMul P a b).termsOf ∧
    (flPvMul P a b).termsOf.length ≤ a.termsOf.length * b.termsOf.length := by
  -- an intermediate list with the same sum, and one rounding
  have key : ∀ (l l' : List PTerm), sumOp l = valOp a * valOp b → coeffTotal l ≤ coeffTotal a.termsOf * coeffTotal b.termsOf →
      Rounded δ 1 l l' → Rounded δ (1 + a.termsOf.length * b.termsOf.length) (prodTerms a.termsOf b.termsOf) l' := by
    intro l l' h1 h2 h3
    refine ((Rounded.of_eq (l := prodTerms a.termsOf b.termsOf) (m := l) ?_ ?_).trans hδ h3).mono hδ (by omega)
    · rw [sumOp_prod, sumOp_termsOf, sumOp_termsOf, h1]
    · rw [coeffTotal_prod]; exact h2
  have key0 : ∀ l' : List PTerm, sumOp l' = valOp a * valOp b → coeffTotal l' ≤ coeffTotal a.termsOf * coeffTotal b.termsOf →
      Rounded δ (1 + a.termsOf.length * b.termsOf.length) (prodTerms a.termsOf b.termsOf) l' :=
    fun l' h1 h2 => key l' l' h1 h2 ((Rounded.refl _).mono hδ (Nat.zero_le 1))
  have one : ∀ p : Pauli, coeffTotal [p.toTerm] = 1 := fun p => by rw [Pauli.toTerm, fromPauli_total]; simp
  cases a with
  | num x =>
    cases b with
    | num y =>
      refine ⟨key [⟨[], x.val * y.val⟩] _ ?_ ?_ ?_, by simp [flPvMul, PVal.termsOf]⟩
      · rw [sumOp_number]; simp [valOp, smul_smul, mul_comm]
      · simp [PVal.termsOf, coeffTotal]
      · refine Rounded.terms hδ (.cons ⟨rfl, ?_⟩ .nil)
        have := flLift_near hP.mul (fun x y => ⟨x * y, by push_cast; rfl⟩) x y
        simpa using this
    | pauli p =>
      refine ⟨key0 _ ?_ ?_, by simp [flPvMul, PVal.termsOf]⟩
      · simp [flPvMul, PVal.termsOf, sumOp, valOp, fromPauli_op]
      · simp only [flPvMul, PVal.termsOf, fromPauli_total, one, mul_one]
        rw [coeffTotal_singleton ⟨[], x.val⟩]
    | term t =>
      refine ⟨key [⟨t.ops, t.coeff * x.val⟩] _ ?_ ?_ (scale_rounded hP hδ [t] x.val), by simp [flPvMul, PVal.termsOf]⟩
      · simpa [valOp, sumOp] using sumOp_scale [t] x.val
      · simp [PVal.termsOf, coeffTotal, mul_comm]
    | expr e =>
      obtain ⟨h1, h2⟩ := flScale_rounded hP hδ e x.val
      refine ⟨key _ _ ?_ ?_ h1, by simpa [flPvMul, PVal.termsOf] using h2⟩
      · rw [sumOp_scale]; simp [valOp, exprOp, sumOp]
      · rw [scale_total]; simp [PVal.termsOf, coeffTotal_singleton]
  | pauli p =>
    cases b with
    | num y =>
      refine ⟨key0 _ ?_ ?_, by simp [flPvMul, PVal.termsOf]⟩
      · simp [flPvMul, PVal.termsOf, sumOp, valOp, fromPauli_op]
      · simp only [flPvMul, PVal.termsOf, fromPauli_total, one, one_mul]
        rw [coeffTotal_singleton ⟨[], y.val⟩]
    | pauli q =>
      refine ⟨key0 _ ?_ ?_, by simp [flPvMul, PVal.termsOf]⟩
      · simp [flPvMul, PVal.termsOf, sumOp, valOp, pauliMul_op]
      · simp only [flPvMul, PVal.termsOf, one, mul_one]
        have t1 : ∀ r : Pauli, ‖(PTerm.fromPauli r 1).coeff‖ ≤ 1 := by
          intro r
          have := fromPauli_total r 1
          rw [coeffTotal_singleton] at this
          rw [this]; simp
        rw [coeffTotal_singleton]
        cases p with
        | I => exact t1 q
        | op o =>
          cases q with
          | I => exact t1 (.op o)
          | op o' =>
            simp only [Pauli.mul]
            split_ifs
            · exact t1 .I
            · simp [PTerm.fromPauliPair]
    | term t =>
      refine ⟨key0 _ ?_ ?_, by simp [flPvMul, PVal.termsOf]⟩
      · simp [flPvMul, PVal.termsOf, sumOp, valOp, termRmulPauli_op]
      · simp only [flPvMul, PVal.termsOf, one, one_mul, coeffTotal_singleton]
        cases p <;> exact le_rfl
    | expr e =>
      have h := flMul_terms_rounded hP hδ [p.toTerm] e.terms
      refine ⟨?_, by simp [flPvMul, PVal.termsOf, PExpr.flRmulTerm]⟩
      exact (by simpa [flPvMul, PVal.termsOf, PExpr.flRmulTerm] using h : Rounded δ 1 _ _).mono hδ (by omega)
  | term t =>
    cases b with
    | num y =>
      refine ⟨key [⟨t.ops, t.coeff * y.val⟩] _ ?_ ?_ (scale_rounded hP hδ [t] y.val), by simp [flPvMul, PVal.termsOf]⟩
      · simpa [valOp, sumOp] using sumOp_scale [t] y.val
      · simp [PVal.termsOf, coeffTotal, mul_comm]
    | pauli q =>
      refine ⟨key0 _ ?_ ?_, by simp [flPvMul, PVal.termsOf]⟩
      · simp [flPvMul, PVal.termsOf, sumOp, valOp, termMulPauli_op]
      · simp only [flPvMul, PVal.termsOf, one, mul_one, coeffTotal_singleton]
        cases q <;> exact le_rfl
    | term s =>
      have h := flMul_terms_rounded hP hδ [t] [s]
      refine ⟨?_, by simp [flPvMul, PVal.termsOf]⟩
      exact (by simpa [flPvMul, PVal.termsOf] using h : Rounded δ 1 _ _).mono hδ (by omega)
    | expr e =>
      have h := flMul_terms_rounded hP hδ [t] e.terms
      refine ⟨?_, by simp [flPvMul, PVal.termsOf, PExpr.flRmulTerm]⟩
      exact (by simpa [flPvMul, PVal.termsOf, PExpr.flRmulTerm] using h : Rounded δ 1 _ _).mono hδ (by omega)
  | expr e =>
    have hsing : ∀ t : PTerm, e.terms.flatMap (fun s => [t].map (fun t => s.flMul P t)) = e.terms.map (fun s => s.flMul P t) := by
      intro t
      induction e.terms with
      | nil => rfl
      | cons s l ih => simp only [List.flatMap_cons, ih]; rfl
    cases b with
    | num y =>
      obtain ⟨h1, h2⟩ := flScale_rounded hP hδ e y.val
      refine ⟨key _ _ ?_ ?_ h1, by simpa [flPvMul, PVal.termsOf] using h2⟩
      · rw [sumOp_scale]; simp [valOp, exprOp, sumOp]
      · rw [scale_total]; simp [PVal.termsOf, coeffTotal_singleton, mul_comm]
    | pauli q =>
      have h := flMul_terms_rounded hP hδ e.terms [q.toTerm]
      rw [hsing] at h
      exact ⟨h.mono hδ (by omega), by simp [flPvMul, PVal.termsOf, PExpr.flMulTerm]⟩
    | term t =>
      have h := flMul_terms_rounded hP hδ e.terms [t]
      rw [hsing] at h
      exact ⟨h.mono hδ (by omega), by simp [flPvMul, PVal.termsOf, PExpr.flMulTerm]⟩
    | expr f => exact ⟨flMul_rounded hP hδ e f, flMul_length P e f⟩

/-! ### Quotients -/

theorem flTermDiv_eq {Q : AlgOps} {t t' : PTerm} {x : PyNum} (h : t.flDiv Q x = some (.ok t')) :
    t' = ⟨t.ops, Q.div t.coeff x.val⟩ ∧ x.val ≠ 0 := by
  cases x with
  | cplx z => simp [PTerm.flDiv] at h
  | real r =>
    simp only [PTerm.flDiv, Option.some.injEq] at h
    split_ifs at h with h1
    injection h with h
    exact ⟨h.symm, by simpa [PyNum.val] using h1⟩

theorem flDivTerms_eq {Q : AlgOps} {x : PyNum} : ∀ {ts us : List PTerm}, flDivTerms Q x ts = .ok us →
    us = ts.map (fun t => ⟨t.ops, Q.div t.coeff x.val⟩)
  | [], us, h => by injection h with h; subst h; rfl
  | t :: ts, us, h => by
    rw [flDivTerms] at h
    rcases ht : t.flDiv Q x with _ | _ | t'
    · rw [ht] at h; cases h
    · rw [ht] at h; cases h
    · rw [ht] at h
      rcases hs : flDivTerms Q x ts with _ | us'
      · simp only [hs] at h; cases h
      · simp only [hs] at h; injection h with h; subst h
        rw [flDivTerms_eq hs, (flTermDiv_eq ht).1]; rfl

theorem div_rounded {Q : AlgOps} (hQ : AlgAccurate Q δ) (hδ : 0 ≤ δ) (l : List PTerm) (z : ℂ) :
    Rounded δ 1 (l.map (fun t => ⟨t.ops, t.coeff * z⁻¹⟩)) (l.map (fun t => ⟨t.ops, Q.div t.coeff z⟩)) := by
  apply Rounded.terms hδ
  induction l with
  | nil => simp
  | cons t l ih => exact .cons ⟨rfl, by have := hQ.div t.coeff z; simpa [div_eq_mul_inv] using this⟩ ih

theorem flPvDiv_rounded {Q : AlgOps} (hQ : AlgAccurate Q δ) (hδ : 0 ≤ δ) {a v : PVal} {x : PyNum} (h : flPvDiv Q a x = .ok v) :
    Rounded δ 1 (a.termsOf.map (fun t => ⟨t.ops, t.coeff * (x.val)⁻¹⟩)) v.termsOf ∧ v.termsOf.length = a.termsOf.length := by
  cases a with
  | num y =>
    rw [flPvDiv] at h
    split_ifs at h
    cases h
    refine ⟨Rounded.terms hδ (.cons ⟨rfl, ?_⟩ .nil), rfl⟩
    have := flLift_near hQ.div (fun x y => ⟨x / y, by push_cast; rfl⟩) y x
    simpa [div_eq_mul_inv] using this
  | pauli p =>
    rw [flPvDiv] at h
    split_ifs at h
    cases h
    refine ⟨?_, rfl⟩
    have h1 := hQ.div 1 x.val
    have h2 : Rounded δ 0 ([p.toTerm].map (fun t => (⟨t.ops, t.coeff * (x.val)⁻¹⟩ : PTerm))) [⟨p.toTerm.ops, 1 / x.val⟩] := by
      refine .of_eq ?_ ?_ <;> cases p <;> simp [Pauli.toTerm, PTerm.fromPauli]
    have h3 : Rounded δ 1 [⟨p.toTerm.ops, 1 / x.val⟩] [⟨p.toTerm.ops, Q.div 1 x.val⟩] :=
      Rounded.terms hδ (.cons ⟨rfl, by simpa using h1⟩ .nil)
    have h4 : Rounded δ 0 [⟨p.toTerm.ops, Q.div 1 x.val⟩] [PTerm.fromPauli p (Q.div 1 x.val)] := by
      refine .of_eq ?_ ?_
      · simp only [sumOp, List.map_cons, List.map_nil, List.sum_cons, List.sum_nil, add_zero, fromPauli_op]
        rw [termOp]
        congr 1
        rw [← toTerm_op, termOp]
        cases p <;> simp [Pauli.toTerm, PTerm.fromPauli]
      · rw [fromPauli_total, coeffTotal_singleton]
    exact (h2.trans hδ (h3.trans hδ h4)).mono hδ (by norm_num)
  | term t =>
    rw [flPvDiv] at h
    rcases ht : t.flDiv Q x with _ | _ | t' <;> rw [ht] at h <;> cases h
    rw [(flTermDiv_eq ht).1]
    exact ⟨div_rounded hQ hδ [t] x.val, rfl⟩
  | expr e =>
    rw [flPvDiv, PExpr.flDiv] at h
    split_ifs at h with h0
    · rcases hs : flDivTerms Q x e.terms with _ | us
      · simp only [hs] at h; cases h
      · simp only [hs] at h; cases h
        rw [flDivTerms_eq hs]
        exact ⟨div_rounded hQ hδ e.terms x.val, by simp [PVal.termsOf]⟩

/-! ### Powers -/

theorem flPowLoop_near {P : PauliOps} (hP : PauliAccurate P δ) (hδ : 0 ≤ δ) {k N M : ℕ} {s : ℝ} {A : Operator} {a : PExpr}
    (ha : NearOp δ k s a.terms A) (hN : a.terms.length ≤ N) : ∀ (m : ℕ) (v : PExpr) (k' n' : ℕ) (s' : ℝ) (A' : Operator),
    NearOp δ k' s' v.terms A' → v.terms.length ≤ n' → n' * N ^ m ≤ M → 0 < N →
    NearOp δ (k' + m * (k + 1 + M)) (s' * s ^ m) (a.flPowLoop P m v).terms (A' * A ^ m) ∧
    (a.flPowLoop P m v).terms.length ≤ n' * N ^ m
  | 0, v, k', n', s', A', h, hl, _, _ => by simpa [PExpr.flPowLoop] using ⟨h, hl⟩
  | m + 1, v, k', n', s', A', h, hl, hM, hN0 => by
    have h1 := (h.mul hδ ha).rounded hδ (flMul_rounded hP hδ v a)
    have h2 : v.terms.length * a.terms.length ≤ n' * N := Nat.mul_le_mul hl hN
    have h3 : n' * N ≤ M := by
      refine le_trans ?_ hM
      rw [pow_succ', ← mul_assoc]
      exact Nat.le_mul_of_pos_right _ (pow_pos hN0 m)
    have h4 := h1.mono hδ (show k' + k + (1 + v.terms.length * a.terms.length) ≤ k' + (k + 1 + M) by omega)
    obtain ⟨h5, h6⟩ := flPowLoop_near (M := M) hP hδ ha hN m (v.flMul P a) _ (n' * N) _ _ h4 ((flMul_length P v a).trans h2)
      (by rw [mul_assoc, ← pow_succ']; exact hM) hN0
    rw [PExpr.flPowLoop]
    constructor
    · rw [pow_succ', ← mul_assoc, pow_succ', ← mul_assoc, show k' + (m + 1) * (k + 1 + M) = k' + (k + 1 + M) + m * (k + 1 + M) by ring]
      exact h5
    · rw [pow_succ', ← mul_assoc]; exact h6

theorem flPvPow_near {Q : AlgOps} (hQ : AlgAccurate Q δ) (hδ : 0 ≤ δ) {a v : PVal} {n k N : ℕ} {s : ℝ} {A : Operator}
    (h : flPvPow Q a n = .ok v) (ha : NearOp δ k s a.termsOf A) (hN : a.termsOf.length ≤ N) (hN0 : 0 < N) :
    NearOp δ (n * (k + 1 + N ^ n)) (s ^ n) v.termsOf (A ^ n) ∧ v.termsOf.length ≤ N ^ n := by
  have hpos : 0 < N ^ n := pow_pos hN0 n
  -- one term
  have key : ∀ (t : PTerm) (t' : PTerm), a.termsOf = [t] → sumOp [⟨t'.ops, t.coeff ^ n⟩] = sumOp [t] ^ n →
      ‖t'.coeff - t.coeff ^ n‖ ≤ ((1 + δ) ^ n - 1) * ‖t.coeff ^ n‖ →
      NearOp δ (n * (k + 1 + N ^ n)) (s ^ n) [t'] (A ^ n) ∧ [t'].length ≤ N ^ n := by
    intro t t' e h1 h2
    rw [e] at ha
    have h3 : Rounded δ 0 (powTerms [t] n) [⟨t'.ops, t.coeff ^ n⟩] := by
      refine .of_eq ?_ ?_
      · rw [sumOp_pow, h1]
      · rw [coeffTotal_pow]; simp [coeffTotal]
    have h4 : Rounded δ n [⟨t'.ops, t.coeff ^ n⟩] [t'] := Rounded.terms hδ (.cons ⟨rfl, h2⟩ .nil)
    refine ⟨((ha.pow hδ n).rounded hδ (h3.trans hδ h4)).mono hδ ?_, hpos⟩
    nlinarith [Nat.zero_le (n * N ^ n)]
  cases a with
  | num y =>
    cases y with
    | real x =>
      rw [flPvPow, if_neg (by omega)] at h
      cases h
      refine key ⟨[], x⟩ ⟨[], _⟩ rfl ?_ ?_
      · rw [sumOp_number, sumOp_number, smul_pow, one_pow]
      · have := hQ.pow x n
        have e : ((x : ℂ)) ^ n = ((x ^ n : ℝ) : ℂ) := by push_cast; rfl
        show ‖(((Q.pow x n).re : ℝ) : ℂ) - (x : ℂ) ^ n‖ ≤ ((1 + δ) ^ n - 1) * ‖(x : ℂ) ^ n‖
        rw [e] at this ⊢
        exact re_near this
    | cplx z =>
      rw [flPvPow, if_neg (by omega)] at h
      cases h
      refine key ⟨[], z⟩ ⟨[], _⟩ rfl ?_ (hQ.pow z n)
      rw [sumOp_number, sumOp_number, smul_pow, one_pow]
  | pauli p => cases h
  | term t =>
    rw [flPvPow, PTerm.flPow, if_neg (by omega)] at h
    split_ifs at h with h0
    · cases h
      have : n = 0 := by omega
      subst this
      refine key t _ rfl ?_ ?_
      · rw [pow_zero, pow_zero]
        simp [PTerm.fromPauli, sumOp, termOp, wordOp_nil]
      · simp [PTerm.fromPauli]
    · cases h
      refine key t _ rfl ?_ (hQ.pow t.coeff n)
      have := termPow_op t ⟨tupleRepeat t.ops n, t.coeff ^ n⟩ n (by
        rw [PTerm.pow, if_neg (by omega), if_neg h0]; simp)
      simpa [sumOp] using this
  | expr e =>
    rw [flPvPow, PExpr.flPow, if_neg (by omega)] at h
    split_ifs at h with h0
    · cases h
      have : n = 0 := by omega
      subst this
      have e1 : (PExpr.fromNumber 1).terms = [⟨[], 1⟩] := by simp [PExpr.fromNumber, PExpr.fromTerm, PTerm.fromPauli]
      simp only [PVal.termsOf, e1, pow_zero]
      refine ⟨(NearOp.of_eq ?_ ?_).mono hδ (Nat.zero_le _), by simp⟩
      · rw [sumOp_number, one_smul]
      · simp [coeffTotal]
    · cases h
      obtain ⟨m, rfl⟩ : ∃ m, n = m + 1 := ⟨n - 1, by omega⟩
      have e2 : ((m + 1 : ℕ) - 1 : ℤ).toNat = m := by omega
      rw [e2]
      obtain ⟨h1, h2⟩ := flPowLoop_near (M := N ^ (m + 1)) hQ.toPauliAccurate hδ ha hN m e k N s A ha hN
        (by rw [pow_succ']) hN0
      refine ⟨?_, by rw [pow_succ']; exact h2⟩
      rw [pow_succ' s, pow_succ' A]
      refine h1.mono hδ ?_
      nlinarith [Nat.zero_le (N ^ (m + 1))]

/-! ## Kinds -/

theorem kind_flPvMul (P : PauliOps) (a b : PVal) : kindOf (flPvMul P a b) =
    if kindOf a = .num ∧ kindOf b = .num then .num
    else if kindOf a = .expr ∨ kindOf b = .expr then .expr else .term := by
  cases a <;> cases b <;> simp [flPvMul, kindOf]

theorem kind_flPvAdd (P : PauliOps) (a b : PVal) : kindOf (flPvAdd P a b) =
    if kindOf a = .num ∧ kindOf b = .num then .num else .expr := by
  cases a <;> cases b <;> simp [flPvAdd, kindOf]

theorem kind_flPvSub (P : PauliOps) (a b : PVal) : kindOf (flPvSub P a b) =
    if kindOf a = .num ∧ kindOf b = .num then .num else .expr := by
  cases a <;> cases b <;> simp [flPvSub, kindOf]

theorem kind_flPvDiv {Q : AlgOps} {a v : PVal} {x : PyNum} (h : flPvDiv Q a x = .ok v) :
    kindOf v = if kindOf a = .pauli then .term else kindOf a := by
  cases a with
  | num y => rw [flPvDiv] at h; split_ifs at h; cases h; simp [kindOf]
  | pauli p => rw [flPvDiv] at h; split_ifs at h; cases h; simp [kindOf]
  | term t =>
    rw [flPvDiv] at h
    rcases ht : t.flDiv Q x with _ | _ | t' <;> rw [ht] at h <;> cases h
    simp [kindOf]
  | expr e =>
    rw [flPvDiv] at h
    rcases ht : e.flDiv Q x with _ | t' <;> rw [ht] at h <;> cases h
    simp [kindOf]

theorem kind_flPvPow {Q : AlgOps} {a v : PVal} {n : ℤ} (h : flPvPow Q a n = .ok v) : kindOf v = kindOf a := by
  cases a with
  | num y => cases y <;> rw [flPvPow] at h <;> split_ifs at h <;> cases h <;> simp [kindOf]
  | pauli p => cases h
  | term t =>
    rw [flPvPow] at h
    rcases ht : t.flPow Q n with _ | t' <;> rw [ht] at h <;> cases h
    simp [kindOf]
  | expr e =>
    rw [flPvPow] at h
    rcases ht : e.flPow Q.toPauliOps n with _ | t' <;> rw [ht] at h <;> cases h
    simp [kindOf]

theorem kind_flPy (Q : AlgOps) (t : Formula) : ∀ v, t.flPy Q = .ok v → kindOf v = t.kind := by
  induction t with
  | num x => intro v h; cases h; rfl
  | pauli p => intro v h; cases h; rfl
  | neg a ih =>
    intro v h
    obtain ⟨x, hx, h⟩ := bind_ok h; cases h
    rw [kind_pvNeg, ih x hx, Formula.kind]
  | add a b iha ihb =>
    intro v h
    obtain ⟨x, hx, h⟩ := bind_ok h; obtain ⟨y, hy, h⟩ := bind_ok h; cases h
    rw [kind_flPvAdd, iha x hx, ihb y hy, Formula.kind]
  | sub a b iha ihb =>
    intro v h
    obtain ⟨x, hx, h⟩ := bind_ok h; obtain ⟨y, hy, h⟩ := bind_ok h; cases h
    rw [kind_flPvSub, iha x hx, ihb y hy, Formula.kind]
  | mul a b iha ihb =>
    intro v h
    obtain ⟨x, hx, h⟩ := bind_ok h; obtain ⟨y, hy, h⟩ := bind_ok h; cases h
    rw [kind_flPvMul, iha x hx, ihb y hy, Formula.kind]
  | div a x ih =>
    intro v h
    obtain ⟨y, hy, h⟩ := bind_ok h
    rw [kind_flPvDiv h, ih y hy, Formula.kind]
  | pow a n ih =>
    intro v h
    obtain ⟨y, hy, h⟩ := bind_ok h
    rw [kind_flPvPow h, ih y hy, Formula.kind]

/-! ## Words -/

theorem flAddStep_wf {P : PauliOps} {d : PyDict (List POp) ℂ} (hd : d.WF) (t : PTerm) : (flAddStep P d t).WF := by
  rw [flAddStep]
  rcases hg : d.get t.ops with _ | v <;> simp only [hg]
  · exact PyDict.wf_set hd _ _
  · split_ifs
    · exact PyDict.wf_del (PyDict.wf_set hd _ _) _
    · exact PyDict.wf_set hd _ _

theorem foldl_wf (f : PyDict (List POp) ℂ → PTerm → PyDict (List POp) ℂ) (hf : ∀ d t, d.WF → (f d t).WF) (ts : List PTerm) :
    ∀ d : PyDict (List POp) ℂ, d.WF → (ts.foldl f d).WF := by
  induction ts with
  | nil => intro d hd; exact hd
  | cons t ts ih => intro d hd; exact ih _ (hf d t hd)

theorem flAdd_nodup (P : PauliOps) (a b : PExpr) : (a.flAdd P b).words.Nodup :=
  fromTermsDict_nodup (foldl_wf _ (fun d t hd => flAddStep_wf hd t) _ _ (termsToDict_wf a))

theorem flMul_nodup (P : PauliOps) (a b : PExpr) : (a.flMul P b).words.Nodup :=
  fromTermsDict_nodup (foldl_wf _ (fun d t hd => PyDict.wf_set hd _ _) _ _ wf_nil)

theorem dictIn_flAddStep {P : PauliOps} {S : List POp → Prop} {d : PyDict (List POp) ℂ} (h : DictIn S d) {t : PTerm}
    (ht : S t.ops) : DictIn S (flAddStep P d t) := by
  rw [flAddStep]
  rcases hg : d.get t.ops with _ | v <;> simp only [hg]
  · exact dictIn_set h ht _
  · split_ifs
    · exact dictIn_del (dictIn_set h ht _) _
    · exact dictIn_set h ht _

theorem dictIn_foldl {S : List POp → Prop} (f : PyDict (List POp) ℂ → PTerm → PyDict (List POp) ℂ)
    (hf : ∀ d t, DictIn S d → S t.ops → DictIn S (f d t)) (ts : List PTerm) : ∀ d : PyDict (List POp) ℂ, DictIn S d →
    (∀ t ∈ ts, S t.ops) → DictIn S (ts.foldl f d) := by
  induction ts with
  | nil => intro d h _; exact h
  | cons t ts ih =>
    intro d h ht
    exact ih _ (hf d t h (ht t (by simp))) (fun s hs => ht s (List.mem_cons_of_mem _ hs))

theorem good_flAdd {P : PauliOps} {a b : PExpr} (ha : a.Good) (hb : b.Good) : (a.flAdd P b).Good :=
  ⟨flAdd_nodup P a b, fromTermsDict_in (dictIn_foldl _ (fun _ _ h ht => dictIn_flAddStep h ht) _ _ (termsToDict_in ha.2)
    (fun t ht => hb.2 _ (List.mem_map_of_mem ht)))⟩

theorem good_flMul {P : PauliOps} {a b : PExpr} (ha : a.Good) (hb : b.Good) : (a.flMul P b).Good := by
  refine ⟨flMul_nodup P a b, fromTermsDict_in (dictIn_foldl (S := Reduced) _ (fun _ _ h ht => dictIn_set h ht _) _ _
    (by intro w hw; simp at hw) (fun t ht => ?_))⟩
  obtain ⟨s, hs, ht⟩ := List.mem_flatMap.1 ht
  obtain ⟨u, hu, rfl⟩ := List.mem_map.1 ht
  exact joinOps_reduced (ha.2 _ (List.mem_map_of_mem hs)) (hb.2 _ (List.mem_map_of_mem hu))

theorem flMulTerm_words (P : PauliOps) (a : PExpr) (t : PTerm) : (a.flMulTerm P t).words = (a.mulTerm t).words := by
  simp [PExpr.flMulTerm, PExpr.mulTerm, PExpr.words, PTerm.mul, PTerm.flMul, List.map_map, Function.comp_def]

theorem flRmulTerm_words (P : PauliOps) (a : PExpr) (t : PTerm) : (a.flRmulTerm P t).words = (a.rmulTerm t).words := by
  simp [PExpr.flRmulTerm, PExpr.rmulTerm, PExpr.words, PTerm.mul, PTerm.flMul, List.map_map, Function.comp_def]

theorem flScale_sublist (P : PauliOps) (a : PExpr) (z : ℂ) : (a.flScale P z).words.Sublist a.words := by
  rw [PExpr.flScale]
  split_ifs
  · simp [PExpr.fromNumber, PExpr.zero, PExpr.words]
  · have : a.words = (a.terms.map (fun t : PTerm => (⟨t.ops, P.mul t.coeff z⟩ : PTerm))).map PTerm.ops := by
      simp [PExpr.words, List.map_map, Function.comp_def]
    rw [this]
    exact List.Sublist.map _ List.filter_sublist

theorem good_of_words {a b : PExpr} (h : b.words = a.words) (ha : a.Good) : b.Good := by
  rw [PExpr.Good, h]; exact ha

theorem good_flPvMul {P : PauliOps} {a b : PVal} (ha : a.Good) (hb : b.Good) : (flPvMul P a b).Good := by
  have h := pvMul_good ha hb
  cases a <;> cases b <;> simp only [flPvMul, pvMul, PVal.Good] at h ha hb ⊢
  case num.pauli => exact h
  case num.term => exact hb
  case num.expr => exact good_sublist (flScale_sublist _ _ _) hb
  case pauli.num => exact h
  case pauli.pauli => exact h
  case pauli.term => exact h
  case pauli.expr => exact good_of_words (flRmulTerm_words _ _ _) h
  case term.num => exact ha
  case term.pauli => exact h
  case term.term => exact h
  case term.expr => exact good_of_words (flRmulTerm_words _ _ _) h
  case expr.num => exact good_sublist (flScale_sublist _ _ _) ha
  case expr.pauli => exact good_of_words (flMulTerm_words _ _ _) h
  case expr.term => exact good_of_words (flMulTerm_words _ _ _) h
  case expr.expr => exact good_flMul ha hb

theorem good_flPvAdd {P : PauliOps} {a b : PVal} (ha : a.Good) (hb : b.Good) : (flPvAdd P a b).Good := by
  have := good_flAdd (P := P) (good_toExpr ha) (good_toExpr hb)
  cases a <;> cases b <;> first | trivial | exact this

theorem flDiv_words {Q : AlgOps} {e e' : PExpr} {x : PyNum} (h : e.flDiv Q x = .ok e') : e'.words = e.words := by
  rw [PExpr.flDiv] at h
  split_ifs at h
  rcases hs : flDivTerms Q x e.terms with _ | us
  · simp only [hs] at h; cases h
  · simp only [hs] at h; cases h
    rw [flDivTerms_eq hs]
    simp [PExpr.words, List.map_map, Function.comp_def]

theorem good_flPvDiv {Q : AlgOps} {a v : PVal} {x : PyNum} (h : flPvDiv Q a x = .ok v) (ha : a.Good) : v.Good := by
  cases a with
  | num y => rw [flPvDiv] at h; split_ifs at h; cases h; trivial
  | pauli p => rw [flPvDiv] at h; split_ifs at h; cases h; exact reduced_fromPauli _ _
  | term t =>
    rw [flPvDiv] at h
    rcases ht : t.flDiv Q x with _ | _ | t' <;> rw [ht] at h <;> cases h
    show Reduced t'.ops; rw [(flTermDiv_eq ht).1]; exact ha
  | expr e =>
    rw [flPvDiv] at h
    rcases ht : e.flDiv Q x with _ | t' <;> rw [ht] at h <;> cases h
    exact good_of_words (flDiv_words ht) ha

theorem good_flPowLoop {P : PauliOps} {a : PExpr} (ha : a.Good) (k : ℕ) : ∀ v, v.Good → (a.flPowLoop P k v).Good := by
  induction k with
  | zero => intro v h; exact h
  | succ k ih => intro v h; exact ih _ (good_flMul h ha)

theorem flPowLoop_nodup {P : PauliOps} (a : PExpr) (k : ℕ) : ∀ v, v.words.Nodup → (a.flPowLoop P k v).words.Nodup := by
  induction k with
  | zero => intro v h; exact h
  | succ k ih => intro v h; exact ih _ (flMul_nodup P _ _)

theorem good_flPvPow {Q : AlgOps} {a v : PVal} {n : ℕ} (h : flPvPow Q a n = .ok v) (ha : a.Good)
    (hn : kindOf a = .term → n ≤ 1) : v.Good := by
  cases a with
  | num y => cases y <;> rw [flPvPow] at h <;> split_ifs at h <;> cases h <;> trivial
  | pauli p => cases h
  | term t =>
    rw [flPvPow] at h
    rcases ht : t.flPow Q n with _ | t' <;> rw [ht] at h <;> cases h
    have hn := hn rfl
    rw [PTerm.flPow] at ht
    rcases (by omega : n = 0 ∨ n = 1) with rfl | rfl
    · simp at ht; subst ht; exact reduced_fromPauli _ _
    · simp [tupleRepeat] at ht; subst ht; exact ha
  | expr e =>
    rw [flPvPow, PExpr.flPow] at h
    split_ifs at h
    · cases h; exact good_fromNumber _
    · cases h; exact good_flPowLoop ha _ _ ha

theorem distinct_flPvAdd (P : PauliOps) (a b : PVal) : (flPvAdd P a b).Distinct := by
  cases a <;> cases b <;> first | trivial | exact flAdd_nodup _ _ _

theorem distinct_flPvMul {P : PauliOps} {a b : PVal} (ha : a.Distinct) (hb : b.Distinct)
    (h1 : kindOf a = .expr → kindOf b = .num ∨ kindOf b = .expr)
    (h2 : kindOf b = .expr → kindOf a = .num ∨ kindOf a = .expr) : (flPvMul P a b).Distinct := by
  cases a <;> cases b <;> simp [kindOf] at h1 h2 <;> try trivial
  · exact List.Nodup.sublist (flScale_sublist _ _ _) hb
  · exact List.Nodup.sublist (flScale_sublist _ _ _) ha
  · exact flMul_nodup _ _ _

theorem distinct_flPvDiv {Q : AlgOps} {a v : PVal} {x : PyNum} (h : flPvDiv Q a x = .ok v) (ha : a.Distinct) : v.Distinct := by
  cases a with
  | expr e =>
    rw [flPvDiv] at h
    rcases ht : e.flDiv Q x with _ | t' <;> rw [ht] at h <;> cases h
    show t'.words.Nodup; rw [flDiv_words ht]; exact ha
  | _ => exact distinct_of_kind (by rw [kind_flPvDiv h]; simp [kindOf])

theorem distinct_flPvPow {Q : AlgOps} {a v : PVal} {n : ℤ} (h : flPvPow Q a n = .ok v) (ha : a.Distinct) : v.Distinct := by
  cases a with
  | expr e =>
    rw [flPvPow, PExpr.flPow] at h
    split_ifs at h
    · cases h; exact fromNumber_nodup _
    · cases h; exact flPowLoop_nodup _ _ _ ha
  | _ => exact distinct_of_kind (by rw [kind_flPvPow h]; simp [kindOf])

theorem good_flPy (Q : AlgOps) (t : Formula) (ht : t.NoTermPower) : ∀ v, t.flPy Q = .ok v → v.Good := by
  induction t with
  | num x => intro v h; cases h; trivial
  | pauli p => intro v h; cases h; trivial
  | neg a ih =>
    intro v h
    obtain ⟨x, hx, h⟩ := bind_ok h; cases h
    exact good_neg (ih ht x hx)
  | add a b iha ihb =>
    intro v h
    obtain ⟨x, hx, h⟩ := bind_ok h; obtain ⟨y, hy, h⟩ := bind_ok h; cases h
    exact good_flPvAdd (iha ht.1 x hx) (ihb ht.2 y hy)
  | sub a b iha ihb =>
    intro v h
    obtain ⟨x, hx, h⟩ := bind_ok h; obtain ⟨y, hy, h⟩ := bind_ok h; cases h
    rw [flPvSub_eq]
    exact good_flPvAdd (iha ht.1 x hx) (good_neg (ihb ht.2 y hy))
  | mul a b iha ihb =>
    intro v h
    obtain ⟨x, hx, h⟩ := bind_ok h; obtain ⟨y, hy, h⟩ := bind_ok h; cases h
    exact good_flPvMul (iha ht.1 x hx) (ihb ht.2 y hy)
  | div a x ih =>
    intro v h
    obtain ⟨y, hy, h⟩ := bind_ok h
    exact good_flPvDiv h (ih ht y hy)
  | pow a n ih =>
    intro v h
    obtain ⟨y, hy, h⟩ := bind_ok h
    exact good_flPvPow h (ih ht.1 y hy) (fun hk => ht.2 ((kind_flPy Q a y hy).symm.trans hk))

theorem distinct_flPy (Q : AlgOps) (t : Formula) (ht : t.NoMixedProduct) : ∀ v, t.flPy Q = .ok v → v.Distinct := by
  induction t with
  | num x => intro v h; cases h; trivial
  | pauli p => intro v h; cases h; trivial
  | neg a ih =>
    intro v h
    obtain ⟨x, hx, h⟩ := bind_ok h; cases h
    exact distinct_neg (ih ht x hx)
  | add a b iha ihb =>
    intro v h
    obtain ⟨x, hx, h⟩ := bind_ok h; obtain ⟨y, hy, h⟩ := bind_ok h; cases h
    exact distinct_flPvAdd _ _ _
  | sub a b iha ihb =>
    intro v h
    obtain ⟨x, hx, h⟩ := bind_ok h; obtain ⟨y, hy, h⟩ := bind_ok h; cases h
    rw [flPvSub_eq]
    exact distinct_flPvAdd _ _ _
  | mul a b iha ihb =>
    intro v h
    obtain ⟨x, hx, h⟩ := bind_ok h; obtain ⟨y, hy, h⟩ := bind_ok h; cases h
    refine distinct_flPvMul (iha ht.1 x hx) (ihb ht.2.1 y hy) ?_ ?_
    · rw [kind_flPy Q a x hx, kind_flPy Q b y hy]; exact ht.2.2.1
    · rw [kind_flPy Q a x hx, kind_flPy Q b y hy]; exact ht.2.2.2
  | div a x ih =>
    intro v h
    obtain ⟨y, hy, h⟩ := bind_ok h
    exact distinct_flPvDiv h (ih ht y hy)
  | pow a n ih =>
    intro v h
    obtain ⟨y, hy, h⟩ := bind_ok h
    exact distinct_flPvPow h (ih ht y hy)

/-! ## Formulas -/

theorem terms_pos (t : Formula) : 0 < t.terms := by
  induction t with
  | num x => simp [Formula.terms]
  | pauli p => simp [Formula.terms]
  | neg a ih => exact ih
  | add a b iha ihb => simp only [Formula.terms]; omega
  | sub a b iha ihb => simp only [Formula.terms]; omega
  | mul a b iha ihb => exact Nat.mul_pos iha ihb
  | div a x ih => exact ih
  | pow a n ih => exact pow_pos ih n

/-- Left operands of `+` and `-` name no word twice. -/
def CleanSums (Q : AlgOps) : Formula → Prop
  | .num _ | .pauli _ => True
  | .neg a | .div a _ | .pow a _ => CleanSums Q a
  | .mul a b => CleanSums Q a ∧ CleanSums Q b
  | .add a b | .sub a b => CleanSums Q a ∧ CleanSums Q b ∧ ∀ v, a.flPy Q = .ok v → v.Distinct

theorem clean_of_noTermPower (Q : AlgOps) (t : Formula) (ht : t.NoTermPower) : CleanSums Q t := by
  induction t with
  | num x => trivial
  | pauli p => trivial
  | neg a ih => exact ih ht
  | add a b iha ihb => exact ⟨iha ht.1, ihb ht.2, fun v hv => good_distinct (good_flPy Q a ht.1 v hv)⟩
  | sub a b iha ihb => exact ⟨iha ht.1, ihb ht.2, fun v hv => good_distinct (good_flPy Q a ht.1 v hv)⟩
  | mul a b iha ihb => exact ⟨iha ht.1, ihb ht.2⟩
  | div a x ih => exact ih ht
  | pow a n ih => exact ih ht.1

theorem clean_of_noMixedProduct (Q : AlgOps) (t : Formula) (ht : t.NoMixedProduct) : CleanSums Q t := by
  induction t with
  | num x => trivial
  | pauli p => trivial
  | neg a ih => exact ih ht
  | add a b iha ihb => exact ⟨iha ht.1, ihb ht.2, distinct_flPy Q a ht.1⟩
  | sub a b iha ihb => exact ⟨iha ht.1, ihb ht.2, distinct_flPy Q a ht.1⟩
  | mul a b iha ihb => exact ⟨iha ht.1, ihb ht.2.1⟩
  | div a x ih => exact ih ht
  | pow a n ih => exact ih ht

theorem neg_one_op (X : Operator) : (-1 : ℂ) • X = -X := neg_one_smul ℂ X

theorem flPy_near {Q : AlgOps} (hQ : AlgAccurate Q δ) (hδ : 0 ≤ δ) (t : Formula) (ht : CleanSums Q t) :
    ∀ v, t.flPy Q = .ok v → NearOp δ t.roundings t.size v.termsOf t.op ∧ v.termsOf.length ≤ t.terms := by
  induction t with
  | num x =>
    intro v h; cases h
    exact ⟨.of_eq (sumOp_termsOf _) (by simp [PVal.termsOf, coeffTotal, Formula.size]), by simp [PVal.termsOf, Formula.terms]⟩
  | pauli p =>
    intro v h; cases h
    refine ⟨.of_eq (sumOp_termsOf _) ?_, by simp [PVal.termsOf, Formula.terms]⟩
    rw [PVal.termsOf, Pauli.toTerm, fromPauli_total]; simp [Formula.size]
  | neg a ih =>
    intro v h
    obtain ⟨x, hx, h⟩ := bind_ok h; cases h
    obtain ⟨h1, h2⟩ := ih ht x hx
    rw [termsOf_neg]
    refine ⟨?_, by simpa [Formula.terms] using h2⟩
    have := h1.smul (-1) (l' := x.termsOf.map PTerm.neg) ?_ ?_
    · rw [neg_one_op] at this
      simpa [Formula.roundings, Formula.size, Formula.op] using this
    · rw [sumOp, sum_neg_terms, neg_one_op, sumOp]
    · simp [coeffTotal, PTerm.neg, Function.comp_def]
  | add a b iha ihb =>
    intro v h
    obtain ⟨x, hx, h⟩ := bind_ok h; obtain ⟨y, hy, h⟩ := bind_ok h; cases h
    obtain ⟨h1, h2⟩ := iha ht.1 x hx
    obtain ⟨h3, h4⟩ := ihb ht.2.1 y hy
    obtain ⟨h5, h6⟩ := flPvAdd_rounded hQ.toPauliAccurate hδ x y (distinct_toExpr (ht.2.2 x hx))
    refine ⟨?_, by simp only [Formula.terms]; omega⟩
    exact ((h1.mono hδ (le_max_left _ _)).append (h3.mono hδ (le_max_right _ _))).rounded hδ (h5.mono hδ h4)
  | sub a b iha ihb =>
    intro v h
    obtain ⟨x, hx, h⟩ := bind_ok h; obtain ⟨y, hy, h⟩ := bind_ok h; cases h
    obtain ⟨h1, h2⟩ := iha ht.1 x hx
    obtain ⟨h3, h4⟩ := ihb ht.2.1 y hy
    rw [flPvSub_eq]
    obtain ⟨h5, h6⟩ := flPvAdd_rounded hQ.toPauliAccurate hδ x (pvNeg y) (distinct_toExpr (ht.2.2 x hx))
    rw [termsOf_neg, List.length_map] at h5 h6
    have h7 := h3.smul (-1) (l' := y.termsOf.map PTerm.neg) (by rw [sumOp, sum_neg_terms, neg_one_op, sumOp])
      (by simp [coeffTotal, PTerm.neg, Function.comp_def])
    simp only [norm_neg, norm_one, one_mul] at h7
    refine ⟨?_, by simp only [Formula.terms]; omega⟩
    have := ((h1.mono hδ (le_max_left _ _)).append (h7.mono hδ (le_max_right _ _))).rounded hδ (h5.mono hδ h4)
    rw [Formula.op, sub_eq_add_neg, ← neg_one_op]
    exact this
  | mul a b iha ihb =>
    intro v h
    obtain ⟨x, hx, h⟩ := bind_ok h; obtain ⟨y, hy, h⟩ := bind_ok h; cases h
    obtain ⟨h1, h2⟩ := iha ht.1 x hx
    obtain ⟨h3, h4⟩ := ihb ht.2 y hy
    obtain ⟨h5, h6⟩ := flPvMul_rounded hQ.toPauliAccurate hδ x y
    have hl := Nat.mul_le_mul h2 h4
    refine ⟨((h1.mul hδ h3).rounded hδ h5).mono hδ ?_, h6.trans hl⟩
    simp only [Formula.roundings]
    omega
  | div a x ih =>
    intro v h
    obtain ⟨y, hy, h⟩ := bind_ok h
    obtain ⟨h1, h2⟩ := ih ht y hy
    obtain ⟨h3, h4⟩ := flPvDiv_rounded hQ hδ h
    refine ⟨?_, by rw [h4]; exact h2⟩
    have := (h1.smul (x.val)⁻¹ (sumOp_scale _ _) (scale_total _ _).le).rounded hδ h3
    rw [Formula.size, div_eq_inv_mul, ← norm_inv]
    exact this
  | pow a n ih =>
    intro v h
    obtain ⟨y, hy, h⟩ := bind_ok h
    obtain ⟨h1, h2⟩ := ih ht y hy
    exact flPvPow_near hQ hδ h h1 h2 (terms_pos a)

end

end Blueqat
