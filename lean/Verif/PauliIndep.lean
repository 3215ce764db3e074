import Verif.PauliSimplify
import Verif.QasmParse
import Mathlib.LinearAlgebra.LinearIndependent.Basic
import Mathlib.Algebra.FreeMonoid.Basic

/-!
# Linear independence of Pauli words; `Expr.simplify` is a canonical form
-/

set_option linter.unusedSimpArgs false
set_option linter.unusedVariables false

namespace Blueqat

open Spec

/-! ## Commutation signs -/

/-- The sign of exchanging two letters: -1 for different letters on one qubit. -/
noncomputable def sign1 (o o' : POp) : ℂ := if o.n = o'.n ∧ o.p ≠ o'.p then -1 else 1

theorem opOp_anti (o o' : POp) : opOp o * opOp o' = sign1 o o' • (opOp o' * opOp o) := by
  rw [sign1]
  by_cases h : o.n = o'.n
  · obtain ⟨p, n⟩ := o
    obtain ⟨q, m⟩ := o'
    simp only at h; subst h
    rw [mulMap_op, mulMap_op]
    cases p <;> cases q <;> simp only [mulMap, optOp] <;> simp <;> module
  · rw [if_neg (by tauto), one_smul]; exact (opOp_comm h).eq

/-- The sign of moving a letter across a word. -/
noncomputable def signW (w : List POp) (o : POp) : ℂ := (w.map (sign1 o)).prod

theorem opOp_word (o : POp) (w : List POp) : opOp o * wordOp w = signW w o • (wordOp w * opOp o) := by
  induction w with
  | nil => simp [wordOp_nil, signW]
  | cons x w ih =>
    rw [wordOp_cons, ← mul_assoc, opOp_anti, smul_mul_assoc, mul_assoc, ih,
      mul_smul_comm, smul_smul, mul_assoc]
    simp [signW]

/-- The character of a word: the sign of moving another word across it. -/
noncomputable def chi (w : List POp) : FreeMonoid POp →* ℂ := FreeMonoid.lift (signW w)

theorem wordOp_chi (w : List POp) (u : List POp) :
    wordOp u * wordOp w * wordOp u.reverse = chi w (FreeMonoid.ofList u) • wordOp w := by
  induction u generalizing w with
  | nil => simp [wordOp_nil]
  | cons o u ih =>
    have h1 : chi w (FreeMonoid.ofList (o :: u)) = signW w o * chi w (FreeMonoid.ofList u) := by
      have : (FreeMonoid.ofList (o :: u)) = FreeMonoid.of o * FreeMonoid.ofList u := rfl
      rw [this, map_mul]; simp [chi]
    rw [h1, wordOp_cons, List.reverse_cons, wordOp_append, wordOp_singleton]
    have : opOp o * wordOp u * wordOp w * (wordOp u.reverse * opOp o) =
        opOp o * (wordOp u * wordOp w * wordOp u.reverse) * opOp o := by noncomm_ring
    rw [this, ih, mul_smul_comm, smul_mul_assoc, opOp_word, smul_mul_assoc, mul_assoc, opOp_sq, mul_one, smul_smul,
      mul_comm]

theorem signW_absent {w : List POp} {n : ℕ} (h : ∀ o ∈ w, o.n ≠ n) (p : PLetter) : signW w ⟨p, n⟩ = 1 := by
  rw [signW]
  apply List.prod_eq_one
  intro x hx
  obtain ⟨o, ho, rfl⟩ := List.mem_map.1 hx
  rw [sign1, if_neg]; intro hh; exact h o ho hh.1.symm

theorem signW_present {w : List POp} (hw : NormalWord w) {n : ℕ} {q : PLetter} (h : (⟨q, n⟩ : POp) ∈ w)
    (p : PLetter) : signW w ⟨p, n⟩ = if p = q then 1 else -1 := by
  induction w with
  | nil => simp at h
  | cons x w ih =>
    have hx := List.pairwise_cons.1 hw
    rcases List.mem_cons.1 h with h | h
    · subst h
      rw [signW, List.map_cons, List.prod_cons, ← signW, signW_absent]
      · by_cases hp : p = q <;> simp [sign1, hp]
      · intro o ho; have := hx.1 o ho; simp at this; omega
    · have := hx.1 _ h
      rw [signW, List.map_cons, List.prod_cons, ← signW, ih hx.2 h, sign1, if_neg, one_mul]
      simp at this ⊢; omega

theorem mem_iff_sign {w : List POp} (hw : NormalWord w) (p : PLetter) (n : ℕ) : (⟨p, n⟩ : POp) ∈ w ↔
    ((signW w ⟨.X, n⟩, signW w ⟨.Z, n⟩) : ℂ × ℂ) =
      (match p with | .X => (1, -1) | .Y => (-1, -1) | .Z => (-1, 1)) := by
  have hne : (1 : ℂ) ≠ -1 := by norm_num
  by_cases h : ∃ q, (⟨q, n⟩ : POp) ∈ w
  · obtain ⟨q, hq⟩ := h
    have huniq : (⟨p, n⟩ : POp) ∈ w ↔ p = q := by
      constructor
      · intro hp
        by_contra hpq
        have h1 := signW_present hw hp p
        have h2 := signW_present hw hq p
        rw [h1, if_pos rfl, if_neg hpq] at h2
        exact hne h2
      · rintro rfl; exact hq
    rw [huniq, signW_present hw hq, signW_present hw hq]
    cases p <;> cases q <;> simp [hne, hne.symm]
  · push Not at h
    have h2 : ∀ o ∈ w, o.n ≠ n := by
      rintro ⟨q, m⟩ ho rfl; exact h q ho
    rw [signW_absent h2, signW_absent h2]
    constructor
    · intro hp; exact absurd hp (h p)
    · cases p <;> simp [hne, hne.symm]

theorem normal_nodup {w : List POp} (h : NormalWord w) : w.Nodup := by
  refine List.Pairwise.imp ?_ h
  rintro a b hab rfl; omega

theorem chi_inj {v w : List POp} (hv : NormalWord v) (hw : NormalWord w) (h : chi v = chi w) : v = w := by
  have hs : ∀ o, signW v o = signW w o := by
    intro o
    have := DFunLike.congr_fun h (FreeMonoid.of o)
    simpa [chi] using this
  have hm : ∀ o, o ∈ v ↔ o ∈ w := by
    rintro ⟨p, n⟩
    rw [mem_iff_sign hv, mem_iff_sign hw, hs, hs]
  have hp : v.Perm w := (List.perm_ext_iff_of_nodup (normal_nodup hv) (normal_nodup hw)).2 hm
  exact hp.eq_of_pairwise (fun a b _ _ h1 h2 => by omega) hv hw

theorem wordOp_reverse (w : List POp) : wordOp w * wordOp w.reverse = 1 := by
  induction w with
  | nil => simp [wordOp_nil]
  | cons o w ih =>
    rw [wordOp_cons, List.reverse_cons, wordOp_append, wordOp_singleton]
    have : opOp o * wordOp w * (wordOp w.reverse * opOp o) = opOp o * (wordOp w * wordOp w.reverse) * opOp o := by
      noncomm_ring
    rw [this, ih, mul_one, opOp_sq]

theorem operator_one_ne : (1 : Operator) ≠ 0 := by
  intro h
  have := congrFun (DFunLike.congr_fun h (fun _ => (1 : ℂ))) 0
  simp at this

theorem wordOp_ne (w : List POp) : wordOp w ≠ 0 := by
  intro h
  have := wordOp_reverse w
  rw [h, zero_mul] at this
  exact operator_one_ne this.symm

/-- Different normal words are linearly independent. -/
theorem words_independent : LinearIndependent ℂ (fun w : {w : List POp // NormalWord w} => wordOp w.1) := by
  rw [linearIndependent_iff']
  intro s g hg i hi
  have hne := wordOp_ne i.1
  obtain ⟨ψ, k, hk⟩ : ∃ ψ k, wordOp i.1 ψ k ≠ 0 := by
    by_contra hc
    push Not at hc
    exact hne (by ext1 ψ; funext k; exact hc ψ k)
  have hchi : LinearIndependent ℂ (fun w : {w : List POp // NormalWord w} => (chi w.1 : FreeMonoid POp → ℂ)) :=
    (linearIndependent_monoidHom (FreeMonoid POp) ℂ).comp (fun w : {w : List POp // NormalWord w} => chi w.1)
      (fun v w h => Subtype.ext (chi_inj v.2 w.2 h))
  have := linearIndependent_iff'.1 hchi s (fun w => g w * wordOp w.1 ψ k) ?_ i hi
  · exact (mul_eq_zero.1 this).resolve_right hk
  · funext u
    have h0 : wordOp u.toList * (∑ w ∈ s, g w • wordOp w.1) * wordOp u.toList.reverse = 0 := by rw [hg]; simp
    rw [Finset.mul_sum, Finset.sum_mul] at h0
    have h1 : ∀ w : {w : List POp // NormalWord w}, wordOp u.toList * g w • wordOp w.1 * wordOp u.toList.reverse =
        (g w * chi w.1 u) • wordOp w.1 := by
      intro w
      rw [mul_smul_comm, smul_mul_assoc, wordOp_chi, smul_smul]; rfl
    simp only [h1] at h0
    have h2 := congrFun (DFunLike.congr_fun h0 ψ) k
    simp only [LinearMap.sum_apply, LinearMap.smul_apply, Finset.sum_apply, Pi.smul_apply, smul_eq_mul,
      LinearMap.zero_apply, Pi.zero_apply] at h2 ⊢
    rw [← h2]
    apply Finset.sum_congr rfl
    intro w _; ring

/-! ## The coefficients of a dictionary are determined by its operator -/

/-- The coefficient of a word. -/
noncomputable def coef (d : PyDict (List POp) ℂ) (w : List POp) : ℂ := (d.get w).getD 0

theorem dictOp_eq_sum {d : PyDict (List POp) ℂ} (h : d.WF) (S : Finset (List POp)) (hS : ∀ w ∈ d.map Prod.fst, w ∈ S) :
    dictOp d = ∑ w ∈ S, coef d w • wordOp w := by
  induction d with
  | nil => simp [dictOp, coef, PyDict.get]
  | cons p d ih =>
    obtain ⟨k, v⟩ := p
    rw [PyDict.WF, List.map_cons, List.nodup_cons] at h
    rw [dictOp_cons, ih h.2 (fun w hw => hS w (by simp at hw ⊢; tauto))]
    have hk : k ∈ S := hS k (by simp)
    rw [← Finset.add_sum_erase S _ hk, ← Finset.add_sum_erase S _ hk]
    have h0 : coef d k = 0 := by rw [coef, PyDict.get_eq_none.2 h.1]; rfl
    have h1 : coef ((k, v) :: d) k = v := by simp [coef, PyDict.get]
    rw [h0, h1, zero_smul, zero_add]
    congr 1
    apply Finset.sum_congr rfl
    intro w hw
    have : k ≠ w := fun hh => (Finset.ne_of_mem_erase hw) hh.symm
    simp [coef, PyDict.get, this]

theorem coef_eq_zero {d : PyDict (List POp) ℂ} {w : List POp} (h : w ∉ d.map Prod.fst) : coef d w = 0 := by
  rw [coef, PyDict.get_eq_none.2 h]; rfl

theorem coef_ext {d e : PyDict (List POp) ℂ} (hd : d.WF) (he : e.WF) (nd : DictIn NormalWord d)
    (ne : DictIn NormalWord e) (h : dictOp d = dictOp e) (w : List POp) : coef d w = coef e w := by
  classical
  set K : List (List POp) := d.map Prod.fst ++ e.map Prod.fst with hK
  have hN : ∀ w ∈ K, NormalWord w := by
    intro w hw
    rcases List.mem_append.1 hw with h | h
    · exact nd w h
    · exact ne w h
  rw [dictOp_eq_sum hd K.toFinset (by intro w hw; simp [K] at *; tauto),
    dictOp_eq_sum he K.toFinset (by intro w hw; simp [K] at *; tauto), ← sub_eq_zero, ← Finset.sum_sub_distrib] at h
  have h : ∑ w ∈ K.toFinset, (coef d w - coef e w) • wordOp w = 0 := by
    rw [← h]; apply Finset.sum_congr rfl; intro w _; module
  by_cases hw : w ∈ K
  · have hli := linearIndependent_iff'.1 words_independent
      (K.toFinset.attach.image (fun x => (⟨x.1, hN x.1 (List.mem_toFinset.1 x.2)⟩ : {w : List POp // NormalWord w})))
      (fun x => coef d x.1 - coef e x.1) ?_ ⟨w, hN w hw⟩ ?_
    · exact sub_eq_zero.1 hli
    · rw [Finset.sum_image]
      · rw [Finset.sum_attach K.toFinset (fun x => (coef d x - coef e x) • wordOp x)]; exact h
      · intro x _ y _ hxy
        exact Subtype.ext (congrArg (fun z : {w : List POp // NormalWord w} => z.1) hxy)
    · rw [Finset.mem_image]
      exact ⟨⟨w, List.mem_toFinset.2 hw⟩, Finset.mem_attach _ _, rfl⟩
  · rw [coef_eq_zero, coef_eq_zero]
    · intro hh; exact hw (List.mem_append.2 (Or.inr hh))
    · intro hh; exact hw (List.mem_append.2 (Or.inl hh))

/-! ## The sort key is injective -/

theorem nat_toString_inj {m n : ℕ} (h : toString m = toString n) : m = n := by
  have h1 := Nat.toNat?_repr m
  have h2 := Nat.toNat?_repr n
  have : m.repr = n.repr := h
  rw [this, h2] at h1
  injection h1 with h1; exact h1.symm

theorem popRepr_inj {a b : POp} (h : a.repr = b.repr) : a = b := by
  obtain ⟨p, n⟩ := a
  obtain ⟨q, m⟩ := b
  have h1 := congrArg String.toList h
  simp only [POp.repr, String.toList_append] at h1
  have hp : p = q := by
    cases p <;> cases q <;> first | rfl | (exfalso; simp at h1)
  subst hp
  rw [List.append_left_inj, List.append_right_inj] at h1
  rw [nat_toString_inj (String.toList_injective h1)]

theorem popRepr_no_comma (o : POp) : ',' ∉ o.repr.toList := by
  obtain ⟨p, n⟩ := o
  simp only [POp.repr, String.toList_append, List.mem_append, not_or]
  refine ⟨⟨⟨by cases p <;> decide, by decide⟩, ?_⟩, by decide⟩
  intro h
  have := Nat.isDigit_of_mem_toDigits (b := 10) (n := n) (c := ',') (by norm_num) (by norm_num) (by simpa using h)
  revert this; decide

theorem split_comma {a b x y : List Char} (ha : ',' ∉ a) (hb : ',' ∉ b) (h : a ++ ',' :: x = b ++ ',' :: y) :
    a = b ∧ x = y := by
  induction a generalizing b with
  | nil =>
    cases b with
    | nil => simpa using h
    | cons c b =>
      simp at h; exact absurd (by rw [← h.1]; simp) hb
  | cons c a ih =>
    cases b with
    | nil => simp at h; exact absurd (by rw [h.1]; simp) ha
    | cons d b =>
      simp only [List.cons_append, List.cons.injEq] at h
      obtain ⟨h1, h2⟩ := ih (fun hh => ha (List.mem_cons_of_mem _ hh)) (fun hh => hb (List.mem_cons_of_mem _ hh)) h.2
      exact ⟨by rw [h.1, h1], h2⟩

/-- The text between the parentheses, for a word of at least one letter. -/
def bodyChars (o : POp) : List POp → List Char
  | [] => o.repr.toList
  | o' :: l => o.repr.toList ++ ',' :: ' ' :: bodyChars o' l

theorem bodyChars_inj : ∀ (l m : List POp) (a b : POp), bodyChars a l = bodyChars b m → a :: l = b :: m
  | [], [], a, b, h => by
    rw [popRepr_inj (String.toList_injective h)]
  | [], c :: m, a, b, h => by
    exfalso
    have := popRepr_no_comma a
    simp only [bodyChars] at h
    rw [h] at this; simp at this
  | c :: l, [], a, b, h => by
    exfalso
    have := popRepr_no_comma b
    simp only [bodyChars] at h
    rw [← h] at this; simp at this
  | c :: l, d :: m, a, b, h => by
    obtain ⟨h1, h2⟩ := split_comma (popRepr_no_comma a) (popRepr_no_comma b) h
    rw [List.cons.injEq] at h2
    rw [bodyChars_inj l m c d h2.2, popRepr_inj (String.toList_injective h1)]

theorem intercalate_toList (a b : POp) (l : List POp) :
    (String.intercalate ", " ((a :: b :: l).map POp.repr)).toList = bodyChars a (b :: l) := by
  induction l generalizing a b with
  | nil => simp [bodyChars, String.intercalate_cons_cons, String.intercalate_singleton]
  | cons c l ih =>
    have := ih b c
    rw [bodyChars, ← this]
    simp [String.intercalate_cons_cons]

/-- The text of a tuple. -/
theorem opsRepr_chars (l : List POp) : (opsRepr l).toList =
    '(' :: (match l with | [] => [')'] | [o] => o.repr.toList ++ [',', ')'] | o :: l => bodyChars o l ++ [')']) := by
  match l with
  | [] => rfl
  | [o] => simp [opsRepr]
  | a :: b :: l =>
    rw [opsRepr, String.toList_append, String.toList_append, intercalate_toList]
    · simp
    · simp
    · simp

theorem bodyChars_no_bad (o : POp) (l : List POp) (x : List Char) : bodyChars o l ≠ x ++ [','] ∧ bodyChars o l ≠ [] := by
  have hlast : ∀ l o, ∃ y, bodyChars o l = y ++ [']'] := by
    intro l
    induction l with
    | nil => intro o; exact ⟨_, by simp only [bodyChars, POp.repr, String.toList_append]; rfl⟩
    | cons c l ih =>
      intro o
      obtain ⟨y, hy⟩ := ih c
      exact ⟨_, by rw [bodyChars, hy, ← List.cons_append, ← List.cons_append, ← List.append_assoc]⟩
  obtain ⟨y, hy⟩ := hlast l o
  rw [hy]
  constructor
  · intro h
    have := congrArg List.getLast? h
    simp at this
  · simp

theorem opsRepr_inj {a b : List POp} (h : opsRepr a = opsRepr b) : a = b := by
  have h := congrArg String.toList h
  rw [opsRepr_chars, opsRepr_chars, List.cons.injEq] at h
  have h := h.2
  match a, b, h with
  | [], [], _ => rfl
  | [], [o], h => exfalso; have := congrArg List.length h; simp at this
  | [], o :: p :: l, h => simp at h; exact absurd h (bodyChars_no_bad o (p :: l) []).2
  | [o], [], h => exfalso; have := congrArg List.length h; simp at this
  | [o], [p], h => rw [List.append_left_inj] at h; rw [popRepr_inj (String.toList_injective h)]
  | [o], p :: q :: l, h =>
    have h : (o.repr.toList ++ [',']) ++ [')'] = bodyChars p (q :: l) ++ [')'] := by simpa using h
    rw [List.append_left_inj] at h
    exact absurd h.symm (bodyChars_no_bad p (q :: l) _).1
  | o :: p :: l, [], h => simp at h; exact absurd h (bodyChars_no_bad o (p :: l) []).2
  | p :: q :: l, [o], h =>
    have h : bodyChars p (q :: l) ++ [')'] = (o.repr.toList ++ [',']) ++ [')'] := by simpa using h
    rw [List.append_left_inj] at h
    exact absurd h (bodyChars_no_bad p (q :: l) _).1
  | o :: p :: l, q :: r :: m, h =>
    have h : bodyChars o (p :: l) ++ [')'] = bodyChars q (r :: m) ++ [')'] := h
    rw [List.append_left_inj] at h
    exact bodyChars_inj _ _ _ _ h

/-! ## `Expr.simplify` -/

theorem simplifyDict_wf (e : PExpr) : e.simplifyDict.WF := foldl_dictAdd_wf _ _ wf_nil

theorem simplifyDict_normal (e : PExpr) : DictIn NormalWord e.simplifyDict := by
  refine dictIn_foldl_dictAdd _ _ (by intro w hw; simp at hw) ?_
  intro t ht
  obtain ⟨s, _, rfl⟩ := List.mem_map.1 ht
  exact simplify_normal s

theorem simplifyDict_op (e : PExpr) : dictOp e.simplifyDict = exprOp e := by
  rw [PExpr.simplifyDict, foldl_dictAdd_op, dictOp_nil, zero_add, List.map_map, exprOp]
  congr 1
  apply List.map_congr_left
  intro t _; exact simplify_op t

theorem sortByRepr_perm (l : List (List POp)) : (sortByRepr l).Perm l := List.mergeSort_perm _ _

theorem strLe_trans : ∀ {a b c : List Char}, strLe a b = true → strLe b c = true → strLe a c = true
  | [], _, _, _, _ => by simp [strLe]
  | _ :: _, [], _, h, _ => by simp [strLe] at h
  | _ :: _, _ :: _, [], _, h => by simp [strLe] at h
  | a :: x, b :: y, c :: z, h1, h2 => by
    simp only [strLe] at *
    split_ifs at * <;> first | rfl | omega | exact strLe_trans h1 h2 | simp_all

theorem strLe_total : ∀ (a b : List Char), (strLe a b || strLe b a) = true
  | [], _ => by simp [strLe]
  | _ :: _, [] => by simp [strLe]
  | a :: x, b :: y => by
    have := strLe_total x y
    simp only [strLe]
    split_ifs <;> first | rfl | omega | simpa using this | simp_all

theorem strLe_antisymm : ∀ {a b : List Char}, strLe a b = true → strLe b a = true → a = b
  | [], [], _, _ => rfl
  | [], _ :: _, _, h => by simp [strLe] at h
  | _ :: _, [], h, _ => by simp [strLe] at h
  | a :: x, b :: y, h1, h2 => by
    simp only [strLe] at *
    by_cases h : a.toNat = b.toNat
    · have hab : a = b := Char.ext (UInt32.toNat_inj.1 h)
      simp only [h, lt_irrefl, if_false, if_true] at h1 h2
      rw [hab, strLe_antisymm h1 h2]
    · simp only [h, Ne.symm h, if_false] at h1 h2
      split_ifs at h1 h2
      omega

theorem sortByRepr_sorted (l : List (List POp)) :
    (sortByRepr l).Pairwise (fun a b => strLe (opsRepr a).toList (opsRepr b).toList = true) :=
  List.pairwise_mergeSort (le := fun a b : List POp => strLe (opsRepr a).toList (opsRepr b).toList)
    (fun a b c h1 h2 => strLe_trans h1 h2) (fun a b => strLe_total _ _) l

/-- The words of `simplify()`, in order. -/
noncomputable def simpWords (e : PExpr) : List (List POp) :=
  (sortByRepr (e.simplifyDict.map Prod.fst)).filter (fun k => decide (coef e.simplifyDict k ≠ 0))

theorem simplify_terms (e : PExpr) :
    e.simplify.terms = (simpWords e).map (fun k => ⟨k, coef e.simplifyDict k⟩) := by
  rw [PExpr.simplify, PExpr.fromTermsIter]
  show List.filter _ ((simpWords e).map (fun k => (⟨k, coef e.simplifyDict k⟩ : PTerm))) = _
  rw [List.filter_eq_self]
  intro t ht
  obtain ⟨k, hk, rfl⟩ := List.mem_map.1 ht
  have := List.of_mem_filter (p := fun k => decide (coef e.simplifyDict k ≠ 0)) hk
  simpa using this

theorem simpWords_nodup (e : PExpr) : (simpWords e).Nodup :=
  List.Nodup.filter _ ((sortByRepr_perm _).nodup_iff.2 (simplifyDict_wf e))

theorem mem_simpWords (e : PExpr) (w : List POp) : w ∈ simpWords e ↔ coef e.simplifyDict w ≠ 0 := by
  rw [simpWords, List.mem_filter, (sortByRepr_perm _).mem_iff]
  constructor
  · intro h; simpa using h.2
  · intro h
    refine ⟨?_, by simpa using h⟩
    by_contra hc; exact h (coef_eq_zero hc)

theorem simplify_canonical {a b : PExpr} (h : exprOp a = exprOp b) : a.simplify = b.simplify := by
  have hc : ∀ w, coef a.simplifyDict w = coef b.simplifyDict w :=
    coef_ext (simplifyDict_wf a) (simplifyDict_wf b) (simplifyDict_normal a) (simplifyDict_normal b)
      (by rw [simplifyDict_op, simplifyDict_op, h])
  have hw : simpWords a = simpWords b := by
    have hp : (simpWords a).Perm (simpWords b) := by
      refine (List.perm_ext_iff_of_nodup (simpWords_nodup a) (simpWords_nodup b)).2 ?_
      intro w; rw [mem_simpWords, mem_simpWords, hc]
    refine hp.eq_of_pairwise (le := fun a b => strLe (opsRepr a).toList (opsRepr b).toList = true) ?_ ?_ ?_
    · intro x y _ _ h1 h2; exact opsRepr_inj (String.toList_injective (strLe_antisymm h1 h2))
    · exact (sortByRepr_sorted _).sublist List.filter_sublist
    · exact (sortByRepr_sorted _).sublist List.filter_sublist
  have ht : a.simplify.terms = b.simplify.terms := by
    rw [simplify_terms, simplify_terms, hw]
    apply List.map_congr_left; intro k _; rw [hc]
  cases ha : a.simplify; cases hb : b.simplify
  rw [ha, hb] at ht; simpa using ht

theorem exprSimplify_op (e : PExpr) : exprOp e.simplify = exprOp e := by
  classical
  rw [← simplifyDict_op e, dictOp_eq_sum (simplifyDict_wf e) (simplifyDict_wf e |> fun _ =>
    (e.simplifyDict.map Prod.fst).toFinset) (by simp), exprOp, simplify_terms, List.map_map]
  have : ((simpWords e).map (termOp ∘ fun k => ⟨k, coef e.simplifyDict k⟩)).sum =
      ∑ w ∈ (simpWords e).toFinset, coef e.simplifyDict w • wordOp w :=
    (List.sum_toFinset _ (simpWords_nodup e)).symm
  rw [this]
  apply Finset.sum_subset
  · intro w hw
    rw [List.mem_toFinset] at *
    rw [simpWords, List.mem_filter, (sortByRepr_perm _).mem_iff] at hw
    exact hw.1
  · intro w _ hw
    rw [List.mem_toFinset, mem_simpWords, not_not] at hw
    rw [hw, zero_smul]

theorem exprSimplify_words (e : PExpr) : e.simplify.words = simpWords e := by
  rw [PExpr.words, simplify_terms, List.map_map]
  conv_rhs => rw [← List.map_id (simpWords e)]
  rfl

theorem exprSimplify_normal (e : PExpr) : ∀ w ∈ e.simplify.words, NormalWord w := by
  intro w hw
  rw [exprSimplify_words, simpWords, List.mem_filter, (sortByRepr_perm _).mem_iff] at hw
  exact simplifyDict_normal e w hw.1

theorem exprSimplify_nodup (e : PExpr) : e.simplify.words.Nodup := by
  rw [exprSimplify_words]; exact simpWords_nodup e

theorem exprSimplify_coeff (e : PExpr) : ∀ t ∈ e.simplify.terms, t.coeff ≠ 0 := by
  intro t ht
  rw [simplify_terms] at ht
  obtain ⟨k, hk, rfl⟩ := List.mem_map.1 ht
  exact (mem_simpWords e k).1 hk

/-! ## Equality -/

theorem termEq_refl (t : PTerm) : t.eq t = true := by simp [PTerm.eq]

theorem termEq_op {a b : PTerm} (h : a.eq b = true) : termOp a = termOp b := by
  simp only [PTerm.eq, Bool.or_eq_true, decide_eq_true_eq] at h
  rcases h with h | h
  · rw [h]
  · rw [← simplify_op a, ← simplify_op b, h]

theorem termsEq_refl (l : List PTerm) : termsEq l l = true := by
  induction l with
  | nil => rfl
  | cons t l ih => simp [termsEq, termEq_refl, ih]

theorem termsEq_op : ∀ {l m : List PTerm}, termsEq l m = true → (l.map termOp).sum = (m.map termOp).sum
  | [], [], _ => rfl
  | a :: l, b :: m, h => by
    rw [termsEq, Bool.and_eq_true] at h
    simp only [List.map_cons, List.sum_cons, termEq_op h.1, termsEq_op h.2]
  | [], _ :: _, h => by simp [termsEq] at h
  | _ :: _, [], h => by simp [termsEq] at h

theorem exprEq_iff (a b : PExpr) : a.eq b = true ↔ exprOp a = exprOp b := by
  rw [PExpr.eq, Bool.or_eq_true]
  constructor
  · rintro (h | h)
    · exact termsEq_op h
    · rw [← exprSimplify_op a, ← exprSimplify_op b]; exact termsEq_op h
  · intro h; right; rw [simplify_canonical h]; exact termsEq_refl _

/-- One normal word is determined by a non-zero multiple of it. -/
theorem term_inj {v w : List POp} (hv : NormalWord v) (hw : NormalWord w) {c d : ℂ} (hc : c ≠ 0)
    (h : c • wordOp v = d • wordOp w) : v = w ∧ c = d := by
  have hd : PyDict.WF ([(v, c)] : PyDict (List POp) ℂ) := by simp [PyDict.WF]
  have he : PyDict.WF ([(w, d)] : PyDict (List POp) ℂ) := by simp [PyDict.WF]
  have := coef_ext hd he (by intro x hx; simp at hx; subst hx; exact hv)
    (by intro x hx; simp at hx; subst hx; exact hw) (by simpa [dictOp] using h) v
  simp only [coef, PyDict.get, if_true, Option.getD_some] at this
  split_ifs at this with hh
  · exact ⟨hh.symm, by simpa using this⟩
  · exact absurd this (by simpa using hc)

theorem termEq_iff {a b : PTerm} (h : a.coeff ≠ 0) : a.eq b = true ↔ termOp a = termOp b := by
  refine ⟨termEq_op, fun ho => ?_⟩
  have hc : a.simplify.coeff ≠ 0 := by
    intro h0
    have : termOp a = 0 := by rw [← simplify_op a, termOp, h0, zero_smul]
    rw [termOp] at this
    exact (smul_eq_zero.1 this).elim h (wordOp_ne _)
  rw [← simplify_op a, ← simplify_op b] at ho
  obtain ⟨h1, h2⟩ := term_inj (simplify_normal a) (simplify_normal b) hc ho
  have : a.simplify = b.simplify := by
    cases ha : a.simplify; cases hb : b.simplify
    rw [ha, hb] at h1 h2; simp_all
  simp [PTerm.eq, this]

end Blueqat
