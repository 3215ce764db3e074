import Verif.Spec.PauliCommFloat
import Verif.PauliAlgFloatLemmas
import Verif.Props.PauliFloat
import Mathlib.Analysis.InnerProductSpace.PiL2

/-!
# Lemmas: commutators in rounded arithmetic
-/

set_option linter.unusedSimpArgs false
set_option linter.unusedVariables false

namespace Blueqat

open Spec

noncomputable section

variable {δ : ℝ}

/-! ## simplify -/

theorem Rounded.perm {l m : List PTerm} (h : m.Perm l) : Rounded δ 0 l m := by
  refine .of_eq ?_ ?_
  · exact (h.map termOp).sum_eq
  · exact ((h.map fun t : PTerm => ‖t.coeff‖).sum_eq).le

theorem simplify_length (t : PTerm) : t.simplify.ops.length ≤ t.ops.length := by
  obtain ⟨l, h1, h2⟩ := simplifyLoop_sublist (simplifyBefore t.ops)
    (pySorted ((simplifyBefore t.ops).map Prod.fst)) t.coeff []
  have h3 : t.simplify.ops = l := by rw [PTerm.simplify, h1, List.nil_append]
  rw [h3]
  have h4 := h2.length_le
  rw [List.length_map, (pySorted_perm _).length_eq] at h4
  refine h4.trans ?_
  rw [show t.ops.length = (t.ops.map POp.n).length by simp]
  refine List.Subperm.length_le ((List.Nodup.subperm (simplifyBefore_wf t.ops)) ?_)
  intro n hn
  exact (simplifyBefore_keys t.ops n).1 hn

theorem flDictAdd_wf {P : PauliOps} {d : PyDict (List POp) ℂ} (hd : d.WF) (t : PTerm) : (flDictAdd P d t).WF :=
  PyDict.wf_set hd _ _

theorem flSimplifyDict_wf (P : PauliOps) (e : PExpr) : (e.flSimplifyDict P).WF :=
  foldl_wf (flDictAdd P) (fun _ t hd => flDictAdd_wf hd t) _ _ wf_nil

theorem flSimplifyDict_normal {P : PauliOps} (hP : PauliAccurate P δ) (hδ : 0 ≤ δ) (e : PExpr) :
    DictIn (fun w => NormalWord w ∧ ∀ L, (∀ t ∈ e.terms, t.ops.length ≤ L) → w.length ≤ L) (e.flSimplifyDict P) := by
  refine dictIn_foldl (flDictAdd P) (fun d t h ht => ?_) _ _ (by simp [DictIn]) ?_
  · intro w hw
    rw [flDictAdd, PyDict.mem_map_fst_set] at hw
    rcases hw with rfl | hw
    · exact ht
    · exact h w hw
  · intro t ht
    obtain ⟨s, hs, rfl⟩ := List.mem_map.1 ht
    rw [(flTermSimplify_near hP hδ s).1]
    exact ⟨simplify_normal s, fun L hL => (simplify_length s).trans (hL s hs)⟩

theorem dictTerms_eq {d : PyDict (List POp) ℂ} (hd : d.WF) :
    dictTerms d = (d.map Prod.fst).map (fun k => (⟨k, (d.get k).getD 0⟩ : PTerm)) := by
  rw [List.map_map, dictTerms]
  refine List.map_congr_left fun p hp => ?_
  obtain ⟨k, v⟩ := p
  simp only [Function.comp]
  rw [PyDict.get_of_mem hd hp]
  rfl

theorem flSimplify_perm (P : PauliOps) (e : PExpr) :
    (e.flSimplify P).terms.Perm ((dictTerms (e.flSimplifyDict P)).filter (fun t => decide (t.coeff ≠ 0))) := by
  rw [PExpr.flSimplify, PExpr.fromTermsIter, dictTerms_eq (flSimplifyDict_wf P e)]
  simp only
  refine (List.Perm.filter _ (((sortByRepr_perm _).filter _).map _)).trans ?_
  generalize (e.flSimplifyDict P).map Prod.fst = ks
  rw [List.filter_map, List.filter_map, List.filter_filter]
  apply List.Perm.of_eq
  congr 1
  apply List.filter_congr
  intro k _
  simp

theorem flSimplify_length (P : PauliOps) (e : PExpr) : (e.flSimplify P).terms.length ≤ e.terms.length := by
  rw [(flSimplify_perm P e).length_eq]
  refine (List.length_filter_le _ _).trans ?_
  rw [dictTerms, List.length_map, PExpr.flSimplifyDict]
  have := foldl_dict_length (flDictAdd P) (fun d t => length_set_le _ _ _) (e.terms.map (PTerm.flSimplify P)) []
  simpa using this

theorem flSimplify_nodup (P : PauliOps) (e : PExpr) : (e.flSimplify P).words.Nodup := by
  have h := ((flSimplify_perm P e).map PTerm.ops).nodup_iff
  show ((e.flSimplify P).terms.map PTerm.ops).Nodup
  rw [h]
  refine List.Nodup.sublist (List.filter_sublist.map _) ?_
  have := flSimplifyDict_wf P e
  rw [PyDict.WF] at this
  simpa [dictTerms, Function.comp_def] using this

theorem flSimplify_words {P : PauliOps} (hP : PauliAccurate P δ) (hδ : 0 ≤ δ) (e : PExpr) {L : ℕ} (hL : ∀ t ∈ e.terms, t.ops.length ≤ L) :
    ∀ t ∈ (e.flSimplify P).terms, NormalWord t.ops ∧ t.ops.length ≤ L := by
  intro t ht
  have h := (flSimplify_perm P e).mem_iff.1 ht
  have h := (List.mem_filter.1 h).1
  rw [dictTerms, List.mem_map] at h
  obtain ⟨p, hp, rfl⟩ := h
  obtain ⟨h1, h2⟩ := flSimplifyDict_normal hP hδ e p.1 (List.mem_map_of_mem hp)
  exact ⟨h1, h2 L hL⟩

theorem flSimplify_rounded {P : PauliOps} (hP : PauliAccurate P δ) (hδ : 0 ≤ δ) (e : PExpr) {L : ℕ} (hL : ∀ t ∈ e.terms, t.ops.length ≤ L) :
    Rounded δ (L + e.terms.length) e.terms (e.flSimplify P).terms := by
  have h1 : Rounded δ 0 e.terms (e.terms.map PTerm.simplify) := by
    refine .of_eq ?_ ?_
    · simp [sumOp, Function.comp_def, simplify_op]
    · simp [coeffTotal, Function.comp_def, simplify_norm]
  have h2 : Rounded δ L (e.terms.map PTerm.simplify) (e.terms.map (PTerm.flSimplify P)) := by
    apply Rounded.terms hδ
    rw [List.forall₂_map_left_iff, List.forall₂_map_right_iff, List.forall₂_same]
    intro t ht
    obtain ⟨e1, e2⟩ := flTermSimplify_near hP hδ t
    exact ⟨e1, e2.mono hδ (hL t ht)⟩
  obtain ⟨h3, -⟩ := foldl_rounded hδ (flDictAdd P) (fun d t hd => flDictAdd_rounded hP hδ hd t)
    (e.terms.map (PTerm.flSimplify P)) [] wf_nil
  have h4 := (Rounded.filter (δ := δ) (dictTerms (e.flSimplifyDict P))).trans hδ (Rounded.perm (flSimplify_perm P e))
  have h5 := ((h1.trans hδ h2).trans hδ h3).trans hδ h4
  simpa using h5

/-! ## The commutator -/

theorem joinOps_length (v w : List POp) : (joinOps v w).length ≤ v.length + w.length := by
  rw [joinOps]
  simp only [List.length_append, List.length_take, List.length_drop]
  omega

theorem flMul_words_length {P : PauliOps} {a b : PExpr} {L M : ℕ} (ha : ∀ t ∈ a.terms, t.ops.length ≤ L)
    (hb : ∀ t ∈ b.terms, t.ops.length ≤ M) : ∀ t ∈ (a.flMul P b).terms, t.ops.length ≤ L + M := by
  intro t ht
  have h : DictIn (fun w => w.length ≤ L + M)
      ((a.terms.flatMap (fun s => b.terms.map (fun t => s.flMul P t))).foldl (flDictAdd P) []) := by
    refine dictIn_foldl (flDictAdd P) (fun d t h ht => ?_) _ _ (by simp [DictIn]) ?_
    · intro w hw
      rw [flDictAdd, PyDict.mem_map_fst_set] at hw
      rcases hw with rfl | hw
      · exact ht
      · exact h w hw
    · intro t ht
      obtain ⟨s, hs, ht⟩ := List.mem_flatMap.1 ht
      obtain ⟨r, hr, rfl⟩ := List.mem_map.1 ht
      exact (joinOps_length _ _).trans (add_le_add (ha s hs) (hb r hr))
  rw [PExpr.flMul, PExpr.fromTermsDict] at ht
  simp only [List.mem_map, List.mem_filter] at ht
  obtain ⟨p, ⟨hp, -⟩, rfl⟩ := ht
  exact h p.1 (List.mem_map_of_mem hp)

theorem flSub_words_length {P : PauliOps} {a b : PExpr} {L : ℕ} (ha : ∀ t ∈ a.terms, t.ops.length ≤ L)
    (hb : ∀ t ∈ b.terms, t.ops.length ≤ L) : ∀ t ∈ (a.flSub P b).terms, t.ops.length ≤ L := by
  intro t ht
  rw [flSub_eq] at ht
  have h0 : DictIn (fun w => w.length ≤ L) a.termsToDict := by
    have := dictIn_foldl (S := fun w => w.length ≤ L) (fun d t => d.set t.ops t.coeff) (fun d t h ht => ?_)
      (a.terms.filter (fun t => decide (t.coeff ≠ 0))) [] (by simp [DictIn]) (fun t ht => ha t (List.mem_of_mem_filter ht))
    · exact this
    · intro w hw
      rw [PyDict.mem_map_fst_set] at hw
      rcases hw with rfl | hw
      · exact ht
      · exact h w hw
  have h := dictIn_foldl (S := fun w => w.length ≤ L) (flAddStep P) (fun d t h ht => dictIn_flAddStep h ht) b.neg.terms a.termsToDict
    h0 (by
      intro t ht
      rw [PExpr.neg, List.mem_map] at ht
      obtain ⟨s, hs, rfl⟩ := ht
      exact hb s hs)
  rw [PExpr.flAdd, PExpr.fromTermsDict] at ht
  simp only [List.mem_map, List.mem_filter] at ht
  obtain ⟨p, ⟨hp, -⟩, rfl⟩ := ht
  exact h p.1 (List.mem_map_of_mem hp)

theorem flSub_length (P : PauliOps) (a b : PExpr) : (a.flSub P b).terms.length ≤ a.terms.length + b.terms.length := by
  rw [flSub_eq]
  refine (flAdd_length P a b.neg).trans ?_
  simp [PExpr.neg]

theorem NearOp.neg {k : ℕ} {s : ℝ} {e : PExpr} {A : Operator} (h : NearOp δ k s e.terms A) : NearOp δ k s e.neg.terms (-A) := by
  have h1 : sumOp e.neg.terms = -sumOp e.terms := sum_neg_terms e.terms
  refine ⟨?_, h.size.neg, ?_⟩
  · rw [h1, show -sumOp e.terms - -A = -(sumOp e.terms - A) by abel]
    exact h.near.neg
  · have : coeffTotal e.neg.terms = coeffTotal e.terms := by simp [coeffTotal, PExpr.neg, PTerm.neg, Function.comp_def]
    rw [this]
    exact h.total

/-- The rounded commutator is near to the exact one. -/
theorem flCommutator_near {P : PauliOps} (hP : PauliAccurate P δ) (hδ : 0 ≤ δ) (a b : PExpr) {L M : ℕ}
    (ha : ∀ t ∈ a.terms, t.ops.length ≤ L) (hb : ∀ t ∈ b.terms, t.ops.length ≤ M) :
    NearOp δ (2 * (L + M) + (a.terms.length + b.terms.length) + 4 * (a.terms.length * b.terms.length) + 1)
      (2 * (coeffTotal a.terms * coeffTotal b.terms)) (flCommutator P a b).terms (exprOp a * exprOp b - exprOp b * exprOp a) ∧
    (flCommutator P a b).terms.length ≤ 2 * (a.terms.length * b.terms.length) ∧
    (∀ t ∈ (flCommutator P a b).terms, NormalWord t.ops) ∧ (flCommutator P a b).words.Nodup := by
  have na := (NearOp.of_eq (δ := δ) (l := a.terms) (A := exprOp a) rfl le_rfl).rounded hδ (flSimplify_rounded hP hδ a ha)
  have nb := (NearOp.of_eq (δ := δ) (l := b.terms) (A := exprOp b) rfl le_rfl).rounded hδ (flSimplify_rounded hP hδ b hb)
  have la := flSimplify_length P a
  have lb := flSimplify_length P b
  have wa := fun t ht => (flSimplify_words hP hδ a ha t ht).2
  have wb := fun t ht => (flSimplify_words hP hδ b hb t ht).2
  rw [flCommutator]
  generalize a.flSimplify P = a' at *
  generalize b.flSimplify P = b' at *
  have hlen : a'.terms.length * b'.terms.length ≤ a.terms.length * b.terms.length := Nat.mul_le_mul la lb
  have m1 := (na.mul hδ nb).rounded hδ (flMul_rounded hP hδ a' b')
  have m2 := (nb.mul hδ na).rounded hδ (flMul_rounded hP hδ b' a')
  have l1 := flMul_length P a' b'
  have l2 := flMul_length P b' a'
  have w1 := flMul_words_length (P := P) wa wb
  have w2 := flMul_words_length (P := P) wb wa
  rw [add_comm M L] at w2
  have n1 := flMul_nodup P a' b'
  generalize a'.flMul P b' = x at *
  generalize b'.flMul P a' = y at *
  have hlen2 : b'.terms.length * a'.terms.length ≤ a.terms.length * b.terms.length := by rw [mul_comm]; exact hlen
  have s1 := (m1.mono hδ (k' := L + M + (a.terms.length + b.terms.length) + 1 + a.terms.length * b.terms.length) (by omega)).append
    ((m2.mono hδ (k' := L + M + (a.terms.length + b.terms.length) + 1 + a.terms.length * b.terms.length) (by omega)).neg)
  have s2 := s1.rounded hδ (flAdd_rounded hP hδ x y.neg n1)
  rw [← flSub_eq] at s2
  have w3 := flSub_words_length (P := P) w1 w2
  have l3 := flSub_length P x y
  have hy : y.neg.terms.length = y.terms.length := by simp [PExpr.neg]
  rw [hy] at s2
  generalize x.flSub P y = z at *
  have s3 := s2.rounded hδ (flSimplify_rounded hP hδ z w3)
  refine ⟨?_, (flSimplify_length P z).trans (by omega), fun t ht => (flSimplify_words hP hδ z w3 t ht).1, flSimplify_nodup P z⟩
  have e1 : exprOp a * exprOp b - exprOp b * exprOp a = exprOp a * exprOp b + -(exprOp b * exprOp a) := sub_eq_add_neg _ _
  have e2 : 2 * (coeffTotal a.terms * coeffTotal b.terms) =
      coeffTotal a.terms * coeffTotal b.terms + coeffTotal b.terms * coeffTotal a.terms := by ring
  rw [e1, e2]
  exact s3.mono hδ (by omega)

/-! ## Sums of squares -/

theorem words_zero {K : List (List POp)} (hN : ∀ w ∈ K, NormalWord w) (g : List POp → ℂ)
    (h : ∑ w ∈ K.toFinset, g w • wordOp w = 0) : ∀ w ∈ K, g w = 0 := by
  intro w hw
  have hli := linearIndependent_iff'.1 words_independent
    (K.toFinset.attach.image (fun x => (⟨x.1, hN x.1 (List.mem_toFinset.1 x.2)⟩ : {w : List POp // NormalWord w})))
    (fun x => g x.1) ?_ ⟨w, hN w hw⟩ ?_
  · exact hli
  · rw [Finset.sum_image]
    · rw [Finset.sum_attach K.toFinset (fun x => g x • wordOp x)]; exact h
    · intro x _ y _ hxy
      exact Subtype.ext (congrArg (fun z : {w : List POp // NormalWord w} => z.1) hxy)
  · rw [Finset.mem_image]
    exact ⟨⟨w, List.mem_toFinset.2 hw⟩, Finset.mem_attach _ _, rfl⟩

/-- The terms as a dictionary. -/
def termsDict (l : List PTerm) : PyDict (List POp) ℂ := l.map (fun t => (t.ops, t.coeff))

theorem termsDict_op (l : List PTerm) : dictOp (termsDict l) = sumOp l := by
  rw [dictOp, termsDict, sumOp, List.map_map]
  rfl

theorem termsDict_keys (l : List PTerm) : (termsDict l).map Prod.fst = l.map PTerm.ops := by
  simp [termsDict, Function.comp_def]

theorem dict_sum_eq {d : PyDict (List POp) ℂ} (h : d.WF) (S : Finset (List POp)) (hS : ∀ w ∈ d.map Prod.fst, w ∈ S)
    (f : ℂ → ℝ) (f0 : f 0 = 0) : (d.map (fun p => f p.2)).sum = ∑ w ∈ S, f (coef d w) := by
  induction d with
  | nil => simp [coef, PyDict.get, f0]
  | cons p d ih =>
    obtain ⟨k, v⟩ := p
    rw [PyDict.WF, List.map_cons, List.nodup_cons] at h
    rw [List.map_cons, List.sum_cons, ih h.2 (fun w hw => hS w (by simp at hw ⊢; tauto))]
    have hk : k ∈ S := hS k (by simp)
    rw [← Finset.add_sum_erase S _ hk, ← Finset.add_sum_erase S (fun w => f (coef ((k, v) :: d) w)) hk]
    have h0 : coef d k = 0 := by rw [coef, PyDict.get_eq_none.2 h.1]; rfl
    have h1 : coef ((k, v) :: d) k = v := by simp [coef, PyDict.get]
    rw [h0, h1, f0, zero_add]
    congr 1
    apply Finset.sum_congr rfl
    intro w hw
    have : k ≠ w := fun hh => (Finset.ne_of_mem_erase hw) hh.symm
    simp [coef, PyDict.get, this]

theorem minkowski {ι : Type} (S : Finset ι) (f g : ι → ℂ) :
    √(∑ i ∈ S, ‖f i + g i‖ ^ 2) ≤ √(∑ i ∈ S, ‖f i‖ ^ 2) + √(∑ i ∈ S, ‖g i‖ ^ 2) := by
  have h := norm_add_le (WithLp.toLp 2 (fun i : S => f i) : EuclideanSpace ℂ S) (WithLp.toLp 2 (fun i : S => g i))
  simp only [EuclideanSpace.norm_eq] at h
  have e : ∀ F : ι → ℝ, ∑ i : S, F i = ∑ i ∈ S, F i := fun F => Finset.sum_coe_sort S F
  rw [← e (fun i => ‖f i + g i‖ ^ 2), ← e (fun i => ‖f i‖ ^ 2), ← e (fun i => ‖g i‖ ^ 2)]
  exact h

/-- The sum of the squares of the coefficients. -/
def sqTotal (l : List PTerm) : ℝ := (l.map (fun t => ‖t.coeff‖ ^ 2)).sum

theorem sqTotal_nonneg (l : List PTerm) : 0 ≤ sqTotal l := by
  refine List.sum_nonneg fun x hx => ?_
  obtain ⟨t, -, rfl⟩ := List.mem_map.1 hx
  positivity

theorem sqTotal_le (l : List PTerm) : sqTotal l ≤ coeffTotal l ^ 2 := by
  induction l with
  | nil => simp [sqTotal, coeffTotal]
  | cons t l ih =>
    have e : sqTotal (t :: l) = ‖t.coeff‖ ^ 2 + sqTotal l := by simp [sqTotal]
    rw [e, coeffTotal_cons]
    have := mul_nonneg (norm_nonneg t.coeff) (coeffTotal_nonneg l)
    nlinarith

theorem pauliAccurate_exact : PauliAccurate .exact 0 := ⟨fun a b => by simp [PauliOps.exact], fun a b => by simp [PauliOps.exact]⟩

theorem simplify_total (e : PExpr) : coeffTotal e.simplify.terms ≤ coeffTotal e.terms := by
  have h := (flSimplify_rounded pauliAccurate_exact le_rfl e (L := (e.terms.map (fun t => t.ops.length)).sum)
    (fun t ht => List.le_sum_of_mem (List.mem_map_of_mem ht))).total
  rw [flExprSimplify_exact] at h
  simpa using h

/-- Two sums of different words that differ by an operator of size `r`. -/
theorem sqTotal_near {l m : List PTerm} (hl : ∀ t ∈ l, NormalWord t.ops) (hm : ∀ t ∈ m, NormalWord t.ops)
    (nl : (l.map PTerm.ops).Nodup) (nm : (m.map PTerm.ops).Nodup) {r : ℝ} (h : SizeLe (sumOp l - sumOp m) r) :
    √(sqTotal l) ≤ √(sqTotal m) + r := by
  classical
  obtain ⟨k, hk, hr⟩ := h
  set e := PExpr.simplify ⟨k⟩ with he
  have h1 : sumOp e.terms = sumOp l - sumOp m := by
    rw [hk]; exact exprSimplify_op ⟨k⟩
  have h2 : coeffTotal e.terms ≤ r := (simplify_total ⟨k⟩).trans hr
  have ne := exprSimplify_nodup ⟨k⟩
  have he' := exprSimplify_normal ⟨k⟩
  rw [← he] at ne he'
  set K : List (List POp) := l.map PTerm.ops ++ (m.map PTerm.ops ++ e.words) with hK
  have hN : ∀ w ∈ K, NormalWord w := by
    intro w hw
    rcases List.mem_append.1 hw with h | h
    · obtain ⟨t, ht, rfl⟩ := List.mem_map.1 h
      exact hl t ht
    · rcases List.mem_append.1 h with h | h
      · obtain ⟨t, ht, rfl⟩ := List.mem_map.1 h
        exact hm t ht
      · exact he' w h
  have wl : (termsDict l).WF := by rw [PyDict.WF, termsDict_keys]; exact nl
  have wm : (termsDict m).WF := by rw [PyDict.WF, termsDict_keys]; exact nm
  have we : (termsDict e.terms).WF := by rw [PyDict.WF, termsDict_keys]; exact ne
  have kl : ∀ w ∈ (termsDict l).map Prod.fst, w ∈ K.toFinset := by
    intro w hw; rw [termsDict_keys] at hw; rw [List.mem_toFinset]; exact List.mem_append.2 (Or.inl hw)
  have km : ∀ w ∈ (termsDict m).map Prod.fst, w ∈ K.toFinset := by
    intro w hw; rw [termsDict_keys] at hw; rw [List.mem_toFinset]
    exact List.mem_append.2 (Or.inr (List.mem_append.2 (Or.inl hw)))
  have ke : ∀ w ∈ (termsDict e.terms).map Prod.fst, w ∈ K.toFinset := by
    intro w hw; rw [termsDict_keys] at hw; rw [List.mem_toFinset]
    exact List.mem_append.2 (Or.inr (List.mem_append.2 (Or.inr hw)))
  have hc : ∀ w ∈ K, coef (termsDict l) w = coef (termsDict m) w + coef (termsDict e.terms) w := by
    intro w hw
    refine sub_eq_zero.1 (words_zero hN (fun w => coef (termsDict l) w - (coef (termsDict m) w + coef (termsDict e.terms) w)) ?_ w hw)
    have h3 : dictOp (termsDict l) - (dictOp (termsDict m) + dictOp (termsDict e.terms)) = 0 := by
      rw [termsDict_op, termsDict_op, termsDict_op, h1]; abel
    rw [dictOp_eq_sum wl _ kl, dictOp_eq_sum wm _ km, dictOp_eq_sum we _ ke, ← Finset.sum_add_distrib, ← Finset.sum_sub_distrib] at h3
    rw [← h3]
    apply Finset.sum_congr rfl
    intro w _
    module
  have hs : ∀ x : List PTerm, (termsDict x).WF → (∀ w ∈ (termsDict x).map Prod.fst, w ∈ K.toFinset) →
      sqTotal x = ∑ w ∈ K.toFinset, ‖coef (termsDict x) w‖ ^ 2 := by
    intro x h1 h2
    rw [← dict_sum_eq h1 _ h2 (fun z => ‖z‖ ^ 2) (by simp)]
    simp [sqTotal, termsDict, Function.comp_def]
  rw [hs l wl kl, Finset.sum_congr rfl (fun w hw => by rw [hc w (List.mem_toFinset.1 hw)])]
  refine (minkowski _ _ _).trans ?_
  rw [← hs m wm km, ← hs e.terms we ke]
  refine add_le_add le_rfl ?_
  rw [← Real.sqrt_sq ((coeffTotal_nonneg e.terms).trans h2)]
  refine Real.sqrt_le_sqrt ((sqTotal_le _).trans ?_)
  have := coeffTotal_nonneg e.terms
  gcongr

/-! ## The sum of squares as computed -/

theorem re_le {z : ℂ} {x r : ℝ} (h : ‖z - x‖ ≤ r) : |z.re - x| ≤ r := by
  have := Complex.abs_re_le_norm (z - x)
  rw [Complex.sub_re, Complex.ofReal_re] at this
  exact this.trans h

theorem flSum_near {P : PauliOps} (hP : PauliAccurate P δ) (hδ : 0 ≤ δ) (xs : List (ℝ × ℝ)) :
    ∀ (k : ℕ) (s S : ℝ), (∀ p ∈ xs, 0 ≤ p.2 ∧ |p.1 - p.2| ≤ ((1 + δ) ^ 1 - 1) * p.2) → 0 ≤ S → 1 ≤ k →
    |s - S| ≤ ((1 + δ) ^ k - 1) * S →
    |((xs.map Prod.fst).foldl (fun (s x : ℝ) => (P.add (s : ℂ) (x : ℂ)).re) s) - (S + (xs.map Prod.snd).sum)| ≤
      ((1 + δ) ^ (k + xs.length) - 1) * (S + (xs.map Prod.snd).sum) := by
  induction xs with
  | nil => intro k s S _ _ _ h; simpa using h
  | cons p xs ih =>
    intro k s S hx hS hk h
    obtain ⟨x, y⟩ := p
    obtain ⟨hy, hxy⟩ := hx (x, y) (by simp)
    simp only [List.map_cons, List.foldl_cons, List.sum_cons, List.length_cons]
    rw [show S + (y + (xs.map Prod.snd).sum) = (S + y) + (xs.map Prod.snd).sum by ring,
      show k + (xs.length + 1) = (k + 1) + xs.length by ring]
    refine ih (k + 1) _ (S + y) (fun p hp => hx p (by simp [hp])) (add_nonneg hS hy) (by omega) ?_
    have h1 := hP.add (s : ℂ) (x : ℂ)
    rw [← Complex.ofReal_add, Complex.norm_real, Real.norm_eq_abs] at h1
    have h2 := re_le h1
    have hmono := pow_le_pow_right₀ (show 1 ≤ 1 + δ by linarith) hk
    simp only at hxy hy
    have h3 : |x - y| ≤ ((1 + δ) ^ k - 1) * y := hxy.trans (mul_le_mul_of_nonneg_right (by linarith) hy)
    have h4 : |s + x - (S + y)| ≤ ((1 + δ) ^ k - 1) * (S + y) := by
      rw [show s + x - (S + y) = (s - S) + (x - y) by ring]
      refine (abs_add_le _ _).trans ?_
      linarith
    have h5 : |s + x| ≤ (1 + δ) ^ k * (S + y) := by
      have : |s + x| ≤ |s + x - (S + y)| + |S + y| := by
        have := abs_add_le (s + x - (S + y)) (S + y)
        rwa [sub_add_cancel] at this
      rw [abs_of_nonneg (add_nonneg hS hy)] at this
      linarith
    have h6 : |(P.add (s : ℂ) (x : ℂ)).re - (S + y)| ≤ δ * |s + x| + ((1 + δ) ^ k - 1) * (S + y) := by
      have := abs_add_le ((P.add (s : ℂ) (x : ℂ)).re - (s + x)) (s + x - (S + y))
      rw [sub_add_sub_cancel] at this
      linarith
    have h7 := mul_le_mul_of_nonneg_left h5 hδ
    rw [pow_succ]
    nlinarith

theorem flCommutatorSize_near {P : PauliOps} (hP : PauliAccurate P δ) (hδ : 0 ≤ δ) (a b : PExpr) :
    |flCommutatorSize P a b - sqTotal (flCommutator P a b).terms| ≤
      ((1 + δ) ^ (1 + (flCommutator P a b).terms.length) - 1) * sqTotal (flCommutator P a b).terms := by
  rw [flCommutatorSize]
  have h := flSum_near hP hδ ((flCommutator P a b).terms.map (fun t =>
    ((P.mul t.coeff ((starRingEnd ℂ) t.coeff)).re, ‖t.coeff‖ ^ 2))) 1 0 0 ?_ le_rfl le_rfl (by simp)
  · simpa [sqTotal, Function.comp_def] using h
  · intro p hp
    obtain ⟨t, -, rfl⟩ := List.mem_map.1 hp
    refine ⟨by positivity, ?_⟩
    have h1 := hP.mul t.coeff ((starRingEnd ℂ) t.coeff)
    rw [Complex.mul_conj, Complex.normSq_eq_norm_sq, Complex.norm_real, Real.norm_eq_abs, abs_of_nonneg (by positivity)] at h1
    simpa using re_le h1

/-! ## Commutators of two terms in rounded arithmetic -/

theorem _root_.Spec.SignedRounding.zero {fl : ℝ → ℝ} (h : SignedRounding fl) : fl 0 = 0 := by
  have := h.odd 0
  rw [neg_zero] at this
  linarith

theorem _root_.Spec.SignedRounding.neg_one {fl : ℝ → ℝ} (h : SignedRounding fl) : fl (-1) = -1 := by rw [h.odd, h.one]

/-- Both parts are machine numbers. -/
def IsFloat (fl : ℝ → ℝ) (z : ℂ) : Prop := fl z.re = z.re ∧ fl z.im = z.im

/-- The phases of products of Pauli operators. -/
def IsUnitPhase (u : ℂ) : Prop := u = 1 ∨ u = -1 ∨ u = Complex.I ∨ u = -Complex.I

theorem IsUnitPhase.mul {u v : ℂ} (hu : IsUnitPhase u) (hv : IsUnitPhase v) : IsUnitPhase (u * v) := by
  rcases hu with rfl | rfl | rfl | rfl <;> rcases hv with rfl | rfl | rfl | rfl <;> simp [IsUnitPhase, Complex.I_mul_I]

theorem IsUnitPhase.isFloat {fl : ℝ → ℝ} (h : SignedRounding fl) {u : ℂ} (hu : IsUnitPhase u) : IsFloat fl u := by
  rcases hu with rfl | rfl | rfl | rfl <;> simp [IsFloat, h.zero, h.one, h.neg_one]

theorem IsFloat.neg {fl : ℝ → ℝ} (h : SignedRounding fl) {z : ℂ} (hz : IsFloat fl z) : IsFloat fl (-z) := by
  simp [IsFloat, h.odd, hz.1, hz.2]

theorem rounded_mul_unit {fl : ℝ → ℝ} (h : SignedRounding fl) {z u : ℂ} (hz : IsFloat fl z) (hu : IsUnitPhase u) :
    (PauliOps.rounded fl).mul z u = z * u ∧ IsFloat fl (z * u) := by
  obtain ⟨h1, h2⟩ := hz
  have h3 : fl (-z.re) = -z.re := by rw [h.odd, h1]
  have h4 : fl (-z.im) = -z.im := by rw [h.odd, h2]
  rcases hu with rfl | rfl | rfl | rfl <;>
    exact ⟨Complex.ext (by simp [PauliOps.rounded, FloatOps.rounded, h.zero, h1, h2, h3, h4])
      (by simp [PauliOps.rounded, FloatOps.rounded, h.zero, h1, h2, h3, h4]), by simp [IsFloat, h1, h2, h3, h4]⟩

theorem simplifyMul_unit (a b : Option PLetter) : IsUnitPhase (simplifyMul a b).1 := by
  rcases a with _ | a <;> rcases b with _ | b <;> try (simp [simplifyMul, IsUnitPhase]; done)
  cases a <;> cases b <;> simp [simplifyMul, mulMap, IsUnitPhase]

theorem flSimplifyQubit_unit {fl : ℝ → ℝ} (h : SignedRounding fl) (l : List PLetter) :
    flSimplifyQubit (.rounded fl) l = simplifyQubit l ∧ IsUnitPhase (simplifyQubit l).1 := by
  cases l with
  | nil => exact ⟨rfl, Or.inl rfl⟩
  | cons p ps =>
    rw [flSimplifyQubit, simplifyQubit]
    have : ∀ (ps : List PLetter) (s : ℂ × Option PLetter), IsUnitPhase s.1 →
        ps.foldl (fun (s : ℂ × Option PLetter) q => let r := simplifyMul s.2 (some q); ((PauliOps.rounded fl).mul s.1 r.1, r.2)) s =
        ps.foldl (fun (s : ℂ × Option PLetter) q => let r := simplifyMul s.2 (some q); (s.1 * r.1, r.2)) s ∧
        IsUnitPhase (ps.foldl (fun (s : ℂ × Option PLetter) q => let r := simplifyMul s.2 (some q); (s.1 * r.1, r.2)) s).1 := by
      intro ps
      induction ps with
      | nil => intro s hs; exact ⟨rfl, hs⟩
      | cons q ps ih =>
        intro s hs
        simp only [List.foldl_cons]
        rw [(rounded_mul_unit h (hs.isFloat h) (simplifyMul_unit s.2 (some q))).1]
        exact ih _ (hs.mul (simplifyMul_unit _ _))
    exact this ps (1, some p) (Or.inl rfl)

theorem flSimplifyLoop_float {fl : ℝ → ℝ} (h : SignedRounding fl) (before : PyDict ℕ (List PLetter)) (ns : List ℕ) :
    ∀ (c : ℂ) (ops : List POp), IsFloat fl c →
    flSimplifyLoop (.rounded fl) before ns (c, ops) = simplifyLoop before ns (c, ops) ∧
      IsFloat fl (simplifyLoop before ns (c, ops)).1 := by
  induction ns with
  | nil => intro c ops hc; exact ⟨rfl, hc⟩
  | cons n ns ih =>
    intro c ops hc
    obtain ⟨h1, h2⟩ := flSimplifyQubit_unit h ((before.get n).getD [])
    simp only [flSimplifyLoop, simplifyLoop, castReal_eq, h1]
    obtain ⟨h3, h4⟩ := rounded_mul_unit h hc h2
    rw [h3]
    exact ih _ _ h4

/-- Simplifying a term only changes the phase of its coefficient, without rounding. -/
theorem flTermSimplify_float {fl : ℝ → ℝ} (h : SignedRounding fl) {t : PTerm} (ht : IsFloat fl t.coeff) :
    t.flSimplify (.rounded fl) = t.simplify ∧ IsFloat fl t.simplify.coeff := by
  obtain ⟨h1, h2⟩ := flSimplifyLoop_float h (simplifyBefore t.ops) (pySorted ((simplifyBefore t.ops).map Prod.fst)) t.coeff [] ht
  rw [PTerm.flSimplify, PTerm.simplify]
  exact ⟨by rw [h1], h2⟩

theorem rounded_mul_comm (fl : ℝ → ℝ) (a b : ℂ) : (PauliOps.rounded fl).mul a b = (PauliOps.rounded fl).mul b a := by
  refine Complex.ext ?_ ?_
  · simp [PauliOps.rounded, FloatOps.rounded, mul_comm]
  · simp only [PauliOps.rounded, FloatOps.rounded]
    rw [add_comm, mul_comm a.im, mul_comm a.re]

theorem rounded_add_float {fl : ℝ → ℝ} (h : SignedRounding fl) (a b : ℂ) : IsFloat fl ((PauliOps.rounded fl).add a b) :=
  ⟨h.idem _, h.idem _⟩

theorem rounded_zero_add {fl : ℝ → ℝ} {a : ℂ} (ha : IsFloat fl a) : (PauliOps.rounded fl).add 0 a = a := by
  refine Complex.ext ?_ ?_
  · simp [PauliOps.rounded, FloatOps.rounded, ha.1]
  · simp [PauliOps.rounded, FloatOps.rounded, ha.2]

theorem rounded_add_neg {fl : ℝ → ℝ} (h : SignedRounding fl) (a : ℂ) : (PauliOps.rounded fl).add a (-a) = 0 := by
  refine Complex.ext ?_ ?_ <;> simp [PauliOps.rounded, FloatOps.rounded, h.zero]

theorem perm_filter_single {l : List PTerm} {t : PTerm} (h : l.Perm ([t].filter (fun t => decide (t.coeff ≠ 0)))) :
    l = (PExpr.fromTerm t).terms := by
  rw [PExpr.fromTerm]
  by_cases ht : t.coeff = 0
  · simp only [ht, ne_eq, not_true, decide_false, List.filter_cons, Bool.false_eq_true, if_false, List.filter_nil, List.perm_nil] at h
    simpa [ht, PExpr.zero] using h
  · simp only [ht, ne_eq, not_false_eq_true, decide_true, List.filter_cons, if_true, List.filter_nil, List.perm_singleton] at h
    simpa [ht] using h

theorem fromTerm_cases (t : PTerm) : ((PExpr.fromTerm t) = ⟨[t]⟩ ∧ t.coeff ≠ 0) ∨ ((PExpr.fromTerm t) = ⟨[]⟩ ∧ t.coeff = 0) := by
  rw [PExpr.fromTerm]
  split_ifs with h
  · exact Or.inl ⟨rfl, h⟩
  · exact Or.inr ⟨rfl, not_not.1 h⟩

theorem flSimplify_empty (P : PauliOps) : (⟨[]⟩ : PExpr).flSimplify P = ⟨[]⟩ := by
  simp [PExpr.flSimplify, PExpr.flSimplifyDict, PExpr.fromTermsIter, sortByRepr]

theorem flSimplify_single {P : PauliOps} (hP : PauliAccurate P δ) (hδ : 0 ≤ δ) (t : PTerm) :
    ∃ z, (PExpr.fromTerm t).flSimplify P = .fromTerm ⟨t.simplify.ops, z⟩ := by
  rcases fromTerm_cases t with ⟨h, -⟩ | ⟨h, -⟩
  · refine ⟨P.add 0 (t.flSimplify P).coeff, ?_⟩
    have h1 := flSimplify_perm P (PExpr.fromTerm t)
    have h2 : dictTerms ((PExpr.fromTerm t).flSimplifyDict P) = [⟨t.simplify.ops, P.add 0 (t.flSimplify P).coeff⟩] := by
      rw [h]
      simp [PExpr.flSimplifyDict, flDictAdd, PyDict.get, PyDict.set, dictTerms, (flTermSimplify_near hP hδ t).1]
    rw [h2] at h1
    have h3 := perm_filter_single h1
    cases hx : (PExpr.fromTerm t).flSimplify P
    cases hy : PExpr.fromTerm ⟨t.simplify.ops, P.add 0 (t.flSimplify P).coeff⟩
    rw [hx, hy] at h3
    simp only at h3
    rw [h3]
  · refine ⟨0, ?_⟩
    rw [h, flSimplify_empty]
    simp [PExpr.fromTerm, PExpr.zero]

theorem flMul_single {fl : ℝ → ℝ} (h : SignedRounding fl) (v w : List POp) (x y : ℂ) :
    ∃ z, IsFloat fl z ∧ (PExpr.fromTerm ⟨v, x⟩).flMul (.rounded fl) (.fromTerm ⟨w, y⟩) = .fromTerm ⟨joinOps v w, z⟩ ∧
      (PExpr.fromTerm ⟨w, y⟩).flMul (.rounded fl) (.fromTerm ⟨v, x⟩) = .fromTerm ⟨joinOps w v, z⟩ := by
  have e : ∀ u : List POp, PExpr.fromTerm ⟨u, 0⟩ = ⟨[]⟩ := fun u => by simp [PExpr.fromTerm, PExpr.zero]
  have f0 : IsFloat fl 0 := by simp [IsFloat, h.zero]
  rcases fromTerm_cases ⟨v, x⟩ with ⟨h1, -⟩ | ⟨h1, -⟩
  · rcases fromTerm_cases ⟨w, y⟩ with ⟨h2, -⟩ | ⟨h2, -⟩
    · refine ⟨(PauliOps.rounded fl).add 0 ((PauliOps.rounded fl).mul x y), rounded_add_float h _ _, ?_, ?_⟩
      · rw [h1, h2]
        by_cases hz : (PauliOps.rounded fl).add 0 ((PauliOps.rounded fl).mul x y) = 0 <;>
          simp [PExpr.flMul, PTerm.flMul, flDictAdd, PyDict.get, PyDict.set, PExpr.fromTermsDict, PExpr.fromTerm, PExpr.zero, hz]
      · rw [h1, h2, rounded_mul_comm fl x y]
        by_cases hz : (PauliOps.rounded fl).add 0 ((PauliOps.rounded fl).mul y x) = 0 <;>
          simp [PExpr.flMul, PTerm.flMul, flDictAdd, PyDict.get, PyDict.set, PExpr.fromTermsDict, PExpr.fromTerm, PExpr.zero, hz]
    · refine ⟨0, f0, ?_, ?_⟩
      · rw [h1, h2, e]; simp [PExpr.flMul, PExpr.fromTermsDict]
      · rw [h1, h2, e]; simp [PExpr.flMul, PExpr.fromTermsDict]
  · refine ⟨0, f0, ?_, ?_⟩
    · rw [h1, e]; simp [PExpr.flMul, PExpr.fromTermsDict]
    · rw [h1, e]
      have : ∀ l : List PTerm, l.flatMap (fun _ => ([] : List PTerm)) = [] := fun l => by simp
      simp [PExpr.flMul, PExpr.fromTermsDict, this]

/-- Two products with the same coefficient cancel if they are the same operator. -/
theorem flSub_cancel {fl : ℝ → ℝ} (h : SignedRounding fl) {p q : List POp} {z : ℂ} (hz : IsFloat fl z) (hpq : wordOp p = wordOp q) :
    ((PExpr.fromTerm ⟨p, z⟩).flSub (.rounded fl) (.fromTerm ⟨q, z⟩)).flSimplify (.rounded fl) = ⟨[]⟩ := by
  by_cases h0 : z = 0
  · subst h0
    rw [show PExpr.fromTerm ⟨p, 0⟩ = ⟨[]⟩ by simp [PExpr.fromTerm, PExpr.zero], show PExpr.fromTerm ⟨q, 0⟩ = ⟨[]⟩ by
      simp [PExpr.fromTerm, PExpr.zero]]
    rw [show (⟨[]⟩ : PExpr).flSub (.rounded fl) ⟨[]⟩ = ⟨[]⟩ by simp [PExpr.flSub, PExpr.termsToDict, PExpr.fromTermsDict],
      flSimplify_empty]
  · rw [show PExpr.fromTerm ⟨p, z⟩ = ⟨[⟨p, z⟩]⟩ by simp [PExpr.fromTerm, h0], show PExpr.fromTerm ⟨q, z⟩ = ⟨[⟨q, z⟩]⟩ by
      simp [PExpr.fromTerm, h0]]
    by_cases hw : p = q
    · subst hw
      rw [show (⟨[⟨p, z⟩]⟩ : PExpr).flSub (.rounded fl) ⟨[⟨p, z⟩]⟩ = ⟨[]⟩ by
        simp [PExpr.flSub, PExpr.termsToDict, PExpr.fromTermsDict, flSubStep, PyDict.get, PyDict.set, PyDict.del, h0,
          rounded_add_neg h], flSimplify_empty]
    · have e1 : (⟨[⟨p, z⟩]⟩ : PExpr).flSub (.rounded fl) ⟨[⟨q, z⟩]⟩ = ⟨[⟨p, z⟩, ⟨q, -z⟩]⟩ := by
        simp [PExpr.flSub, PExpr.termsToDict, PExpr.fromTermsDict, flSubStep, PyDict.get, PyDict.set, PyDict.del, h0, hw]
      rw [e1]
      obtain ⟨s1, s2⟩ := flTermSimplify_float h (t := ⟨p, z⟩) hz
      obtain ⟨r1, r2⟩ := flTermSimplify_float h (t := ⟨q, -z⟩) (hz.neg h)
      have c0 : (PTerm.simplify ⟨p, z⟩).coeff ≠ 0 := by
        rw [← norm_ne_zero_iff, simplify_norm, norm_ne_zero_iff]; exact h0
      have key : (PTerm.simplify ⟨p, z⟩).ops = (PTerm.simplify ⟨q, -z⟩).ops ∧
          (PTerm.simplify ⟨p, z⟩).coeff = -(PTerm.simplify ⟨q, -z⟩).coeff := by
        refine term_inj (simplify_normal _) (simplify_normal _) c0 ?_
        have t1 := simplify_op ⟨p, z⟩
        have t2 := simplify_op ⟨q, -z⟩
        simp only [termOp] at t1 t2
        rw [t1, hpq]
        calc z • wordOp q = -((-z) • wordOp q) := by module
          _ = _ := by rw [← t2]; module
      have hperm := flSimplify_perm (.rounded fl) ⟨[⟨p, z⟩, ⟨q, -z⟩]⟩
      have hd : (⟨[⟨p, z⟩, ⟨q, -z⟩]⟩ : PExpr).flSimplifyDict (.rounded fl) = [((PTerm.simplify ⟨q, -z⟩).ops, 0)] := by
        have hc : (PauliOps.rounded fl).add (-(PTerm.simplify ⟨q, -z⟩).coeff) (PTerm.simplify ⟨q, -z⟩).coeff = 0 := by
          have := rounded_add_neg h (-(PTerm.simplify ⟨q, -z⟩).coeff)
          rwa [neg_neg] at this
        simp [PExpr.flSimplifyDict, s1, r1, flDictAdd, PyDict.get, PyDict.set, key.1, key.2, rounded_zero_add (r2.neg h), hc]
      rw [hd] at hperm
      have hnil : ((⟨[⟨p, z⟩, ⟨q, -z⟩]⟩ : PExpr).flSimplify (.rounded fl)).terms = [] := by
        simpa [dictTerms] using hperm
      cases hx : (⟨[⟨p, z⟩, ⟨q, -z⟩]⟩ : PExpr).flSimplify (.rounded fl)
      rw [hx] at hnil
      simp only at hnil
      rw [hnil]

theorem simplifyLoop_ops (before : PyDict ℕ (List PLetter)) (ns : List ℕ) : ∀ (c c' : ℂ) (ops : List POp),
    (simplifyLoop before ns (c, ops)).2 = (simplifyLoop before ns (c', ops)).2 := by
  induction ns with
  | nil => intro c c' ops; rfl
  | cons n ns ih => intro c c' ops; exact ih _ _ _

/-- A simplified word is the word up to a phase. -/
theorem simplify_word_phase (r : PTerm) : ∃ g : ℂ, wordOp r.simplify.ops = g • wordOp r.ops := by
  have h1 := simplify_op ⟨r.ops, 1⟩
  have h2 : (PTerm.simplify ⟨r.ops, 1⟩).ops = r.simplify.ops := simplifyLoop_ops _ _ _ _ _
  have h3 : (PTerm.simplify ⟨r.ops, 1⟩).coeff ≠ 0 := by
    rw [← norm_ne_zero_iff, simplify_norm]; simp
  simp only [termOp, one_smul, h2] at h1
  refine ⟨(PTerm.simplify ⟨r.ops, 1⟩).coeff⁻¹, ?_⟩
  rw [← h1, smul_smul, inv_mul_cancel₀ h3, one_smul]

/-- The commutator of two terms with commuting words is zero also in rounded arithmetic. -/
theorem flCommutator_commuting {fl : ℝ → ℝ} (h : SignedRounding fl) {u : ℝ} (hP : PauliAccurate (.rounded fl) u) (hu : 0 ≤ u)
    (s t : PTerm) (hc : wordOp s.ops * wordOp t.ops = wordOp t.ops * wordOp s.ops) :
    flCommutator (.rounded fl) (.fromTerm s) (.fromTerm t) = ⟨[]⟩ := by
  obtain ⟨x, hx⟩ := flSimplify_single hP hu s
  obtain ⟨y, hy⟩ := flSimplify_single hP hu t
  obtain ⟨z, hz, h1, h2⟩ := flMul_single h s.simplify.ops t.simplify.ops x y
  rw [flCommutator, hx, hy, h1, h2]
  refine flSub_cancel h hz ?_
  rw [joinOps_op, joinOps_op]
  obtain ⟨g, hg⟩ := simplify_word_phase s
  obtain ⟨g', hg'⟩ := simplify_word_phase t
  rw [hg, hg', smul_mul_smul_comm, smul_mul_smul_comm, hc, mul_comm]

end

end Blueqat
