import Verif.PauliLemmas
import Mathlib.Data.List.Chain

/-!
# Words without two equal neighbours, and `join_ops` on them

On such words `join_ops` cancels completely: it is the product of a group, so multiplying different words by the same
word gives different words.
-/

set_option linter.unusedSimpArgs false
set_option linter.unusedVariables false

namespace Blueqat

open Spec

theorem joinOps_nil_left (b : List POp) : joinOps [] b = b := by simp [joinOps, joinLoop]

theorem joinOps_nil_right (a : List POp) : joinOps a [] = a := by
  rw [joinOps]
  cases h : a.length with
  | zero => rw [List.length_eq_zero_iff] at h; subst h; rfl
  | succ i => simp [joinLoop, ← h]

theorem joinLoop_snoc_cons (a t : List POp) (o o' : POp) : ∀ i j, i ≤ a.length →
    joinLoop (a ++ [o]) (o' :: t) i (j + 1) = ((joinLoop a t i j).1, (joinLoop a t i j).2 + 1)
  | 0, j, _ => by simp [joinLoop]
  | i + 1, j, hi => by
    rw [joinLoop, joinLoop]
    have h1 : (a ++ [o])[i]? = a[i]? := by rw [List.getElem?_append_left (by omega)]
    simp only [List.length_cons, Nat.add_lt_add_iff_right, h1, List.getElem?_cons_succ]
    split_ifs with h
    · exact joinLoop_snoc_cons a t o o' i (j + 1) (by omega)
    · rfl

theorem joinLoop_fst_le (a b : List POp) : ∀ i j, (joinLoop a b i j).1 ≤ i
  | 0, j => by simp [joinLoop]
  | i + 1, j => by
    rw [joinLoop]; split_ifs
    · exact (joinLoop_fst_le a b i (j + 1)).trans (by omega)
    · exact le_rfl

theorem joinOps_snoc_cons (a t : List POp) (o o' : POp) :
    joinOps (a ++ [o]) (o' :: t) = if o = o' then joinOps a t else a ++ [o] ++ o' :: t := by
  rw [joinOps]
  simp only [List.length_append, List.length_singleton]
  rw [joinLoop]
  have h1 : (a ++ [o])[a.length]? = some o := by simp
  simp only [h1, List.length_cons, List.getElem?_cons_zero, Option.some.injEq, Nat.zero_lt_succ, true_and]
  split_ifs with h
  · rw [joinLoop_snoc_cons a t o o' _ 0 le_rfl, joinOps]
    have := joinLoop_fst_le a t a.length 0
    simp [List.take_append_of_le_length this]
  · rw [List.take_of_length_le (by simp)]; simp

theorem joinOps_reverse (a b : List POp) : (joinOps a b).reverse = joinOps b.reverse a.reverse := by
  induction a using List.reverseRecOn generalizing b with
  | nil => simp [joinOps_nil_left, joinOps_nil_right]
  | append_singleton a o ih =>
    cases b with
    | nil => simp [joinOps_nil_left, joinOps_nil_right]
    | cons o' t =>
      rw [joinOps_snoc_cons]
      simp only [List.reverse_cons, List.reverse_append, List.reverse_nil, List.nil_append, List.singleton_append]
      rw [joinOps_snoc_cons]
      by_cases h : o = o'
      · rw [if_pos h, if_pos h.symm, ih]
      · rw [if_neg h, if_neg (Ne.symm h)]; simp

/-- No two neighbours are equal. -/
def Reduced (l : List POp) : Prop := l.IsChain (· ≠ ·)

/-- Multiply a word by one letter on the right, cancelling. -/
def push (w : List POp) (o : POp) : List POp := if w.getLast? = some o then w.dropLast else w ++ [o]

theorem push_reduced {w : List POp} (h : Reduced w) (o : POp) : Reduced (push w o) := by
  rw [push]; split_ifs with h1
  · exact List.IsChain.dropLast h
  · rw [Reduced, List.isChain_append]
    refine ⟨h, List.isChain_singleton _, ?_⟩
    intro x hx y hy
    simp at hy; subst hy
    rintro rfl; exact h1 hx

theorem push_push {w : List POp} (h : Reduced w) (o : POp) : push (push w o) o = w := by
  rw [push.eq_def w]
  split_ifs with h1
  · induction w using List.reverseRecOn with
    | nil => simp at h1
    | append_singleton w x _ =>
      simp at h1; subst h1
      rw [List.dropLast_concat, push, if_neg]
      intro h2
      rw [Reduced, List.isChain_append] at h
      exact h.2.2 x h2 x (by simp) rfl
  · simp [push]

theorem foldl_push_reduced (t : List POp) : ∀ w, Reduced w → Reduced (t.foldl push w) := by
  induction t with
  | nil => intro w h; exact h
  | cons o t ih => intro w h; exact ih _ (push_reduced h o)

theorem foldl_push_inj (t : List POp) : ∀ v w, Reduced v → Reduced w → t.foldl push v = t.foldl push w → v = w := by
  induction t with
  | nil => intro v w _ _ h; exact h
  | cons o t ih =>
    intro v w hv hw h
    have := ih _ _ (push_reduced hv o) (push_reduced hw o) h
    rw [← push_push hv o, this, push_push hw o]

theorem foldl_push_append (t : List POp) : ∀ w, Reduced t → (∀ x ∈ w.getLast?, ∀ y ∈ t.head?, x ≠ y) →
    t.foldl push w = w ++ t := by
  induction t with
  | nil => intro w _ _; simp
  | cons o t ih =>
    intro w ht hw
    have h1 : push w o = w ++ [o] := by
      rw [push, if_neg]; intro h; exact hw o h o (by simp) rfl
    rw [List.foldl_cons, h1, ih]
    · simp
    · exact List.IsChain.tail ht
    · intro x hx y hy
      simp at hx; subst hx
      cases t with
      | nil => simp at hy
      | cons z t =>
        simp at hy; subst hy
        rw [Reduced, List.isChain_cons_cons] at ht
        exact ht.1

theorem joinOps_eq_push (a : List POp) : ∀ t, Reduced a → Reduced t → joinOps a t = t.foldl push a := by
  induction a using List.reverseRecOn with
  | nil => intro t _ ht; rw [joinOps_nil_left, foldl_push_append t [] ht (by simp)]; rfl
  | append_singleton a o ih =>
    intro t ha ht
    cases t with
    | nil => rw [joinOps_nil_right]; rfl
    | cons o' t =>
      rw [joinOps_snoc_cons]
      split_ifs with h
      · subst h
        rw [List.foldl_cons, push, if_pos (by simp), List.dropLast_concat]
        refine ih t ?_ (List.IsChain.tail ht)
        rw [Reduced, List.isChain_append] at ha; exact ha.1
      · rw [foldl_push_append _ _ ht]
        intro x hx y hy; simp at hx hy; subst hx; subst hy; exact h

theorem joinOps_reduced {a t : List POp} (ha : Reduced a) (ht : Reduced t) : Reduced (joinOps a t) := by
  rw [joinOps_eq_push a t ha ht]; exact foldl_push_reduced t a ha

theorem joinOps_inj_left {a b t : List POp} (ha : Reduced a) (hb : Reduced b) (ht : Reduced t)
    (h : joinOps a t = joinOps b t) : a = b := by
  rw [joinOps_eq_push a t ha ht, joinOps_eq_push b t hb ht] at h
  exact foldl_push_inj t a b ha hb h

theorem reduced_reverse {a : List POp} (h : Reduced a) : Reduced a.reverse := by
  rw [Reduced, List.isChain_reverse]
  exact List.IsChain.imp (fun _ _ h => Ne.symm h) h

theorem joinOps_inj_right {a b t : List POp} (ha : Reduced a) (hb : Reduced b) (ht : Reduced t)
    (h : joinOps t a = joinOps t b) : a = b := by
  have := congrArg List.reverse h
  rw [joinOps_reverse, joinOps_reverse] at this
  exact List.reverse_injective (joinOps_inj_left (reduced_reverse ha) (reduced_reverse hb) (reduced_reverse ht) this)

theorem reduced_nil : Reduced [] := List.IsChain.nil
theorem reduced_singleton (o : POp) : Reduced [o] := List.isChain_singleton _

/-! ## Expressions all of whose words are reduced -/

/-- All words are reduced and no word occurs twice. -/
def PExpr.Good (e : PExpr) : Prop := e.words.Nodup ∧ ∀ w ∈ e.words, Reduced w

theorem mulTerm_words (a : PExpr) (t : PTerm) : (a.mulTerm t).words = a.words.map (fun w => joinOps w t.ops) := by
  simp [PExpr.mulTerm, PExpr.words, PTerm.mul, List.map_map, Function.comp_def]

theorem rmulTerm_words (a : PExpr) (t : PTerm) : (a.rmulTerm t).words = a.words.map (fun w => joinOps t.ops w) := by
  simp [PExpr.rmulTerm, PExpr.words, PTerm.mul, List.map_map, Function.comp_def]

theorem mulTerm_good {a : PExpr} (h : a.Good) {t : PTerm} (ht : Reduced t.ops) : (a.mulTerm t).Good := by
  obtain ⟨h1, h2⟩ := h
  rw [PExpr.Good, mulTerm_words]
  refine ⟨h1.map_on ?_, ?_⟩
  · intro x hx y hy he; exact joinOps_inj_left (h2 x hx) (h2 y hy) ht he
  · intro w hw; obtain ⟨v, hv, rfl⟩ := List.mem_map.1 hw; exact joinOps_reduced (h2 v hv) ht

theorem rmulTerm_good {a : PExpr} (h : a.Good) {t : PTerm} (ht : Reduced t.ops) : (a.rmulTerm t).Good := by
  obtain ⟨h1, h2⟩ := h
  rw [PExpr.Good, rmulTerm_words]
  refine ⟨h1.map_on ?_, ?_⟩
  · intro x hx y hy he; exact joinOps_inj_right (h2 x hx) (h2 y hy) ht he
  · intro w hw; obtain ⟨v, hv, rfl⟩ := List.mem_map.1 hw; exact joinOps_reduced ht (h2 v hv)

/-- The words of a dictionary are those of `P`. -/
def DictIn (P : List POp → Prop) (d : PyDict (List POp) ℂ) : Prop := ∀ w ∈ d.map Prod.fst, P w

theorem dictIn_set {P : List POp → Prop} {d : PyDict (List POp) ℂ} (h : DictIn P d) {k : List POp} (hk : P k) (v : ℂ) :
    DictIn P (d.set k v) := by
  intro w hw
  rw [PyDict.mem_map_fst_set] at hw
  rcases hw with rfl | hw
  · exact hk
  · exact h w hw

theorem dictIn_del {P : List POp → Prop} {d : PyDict (List POp) ℂ} (h : DictIn P d) (k : List POp) :
    DictIn P (d.del k) := by
  intro w hw
  exact h w ((List.Sublist.map _ List.filter_sublist).subset hw)

theorem dictIn_addStep {P : List POp → Prop} {d : PyDict (List POp) ℂ} (h : DictIn P d) {t : PTerm} (ht : P t.ops) :
    DictIn P (addStep d t) := by
  rw [addStep]
  split
  · dsimp only; split_ifs
    · exact dictIn_del (dictIn_set h ht _) _
    · exact dictIn_set h ht _
  · exact dictIn_set h ht _

theorem dictIn_foldl_addStep {P : List POp → Prop} (ts : List PTerm) : ∀ d : PyDict (List POp) ℂ, DictIn P d →
    (∀ t ∈ ts, P t.ops) → DictIn P (ts.foldl addStep d) := by
  induction ts with
  | nil => intro d h _; exact h
  | cons t ts ih =>
    intro d h ht
    exact ih _ (dictIn_addStep h (ht t (by simp))) (fun s hs => ht s (List.mem_cons_of_mem _ hs))

theorem dictIn_foldl_set {P : List POp → Prop} (ts : List PTerm) : ∀ d : PyDict (List POp) ℂ, DictIn P d →
    (∀ t ∈ ts, P t.ops) → DictIn P (ts.foldl (fun d t => d.set t.ops t.coeff) d) := by
  induction ts with
  | nil => intro d h _; exact h
  | cons t ts ih =>
    intro d h ht
    exact ih _ (dictIn_set h (ht t (by simp)) _) (fun s hs => ht s (List.mem_cons_of_mem _ hs))

theorem dictIn_foldl_dictAdd {P : List POp → Prop} (ts : List PTerm) : ∀ d : PyDict (List POp) ℂ, DictIn P d →
    (∀ t ∈ ts, P t.ops) → DictIn P (ts.foldl dictAdd d) := by
  induction ts with
  | nil => intro d h _; exact h
  | cons t ts ih =>
    intro d h ht
    exact ih _ (dictIn_set h (ht t (by simp)) _) (fun s hs => ht s (List.mem_cons_of_mem _ hs))

theorem fromTermsDict_in {P : List POp → Prop} {d : PyDict (List POp) ℂ} (h : DictIn P d) :
    ∀ w ∈ (PExpr.fromTermsDict d).words, P w := by
  intro w hw
  rw [PExpr.words, PExpr.fromTermsDict, List.map_map] at hw
  exact h w ((List.Sublist.map _ List.filter_sublist).subset hw)

theorem termsToDict_in {P : List POp → Prop} {e : PExpr} (h : ∀ w ∈ e.words, P w) : DictIn P e.termsToDict := by
  refine dictIn_foldl_set _ _ (by intro w hw; simp at hw) ?_
  intro t ht
  exact h _ (List.mem_map_of_mem (List.mem_of_mem_filter ht))

theorem exprAdd_in {P : List POp → Prop} {a b : PExpr} (ha : ∀ w ∈ a.words, P w) (hb : ∀ w ∈ b.words, P w) :
    ∀ w ∈ (a.add b).words, P w :=
  fromTermsDict_in (dictIn_foldl_addStep _ _ (termsToDict_in ha) (fun t ht => hb _ (List.mem_map_of_mem ht)))

theorem exprSub_in {P : List POp → Prop} {a b : PExpr} (ha : ∀ w ∈ a.words, P w) (hb : ∀ w ∈ b.words, P w) :
    ∀ w ∈ (a.sub b).words, P w := by
  rw [PExpr.sub, foldl_subStep]
  refine fromTermsDict_in (dictIn_foldl_addStep _ _ (termsToDict_in ha) (fun t ht => ?_))
  obtain ⟨s, hs, rfl⟩ := List.mem_map.1 ht
  show P s.ops
  exact hb _ (List.mem_map_of_mem (f := PTerm.ops) hs)

theorem exprMul_in {P Q R : List POp → Prop} {a b : PExpr} (ha : ∀ w ∈ a.words, P w) (hb : ∀ w ∈ b.words, Q w)
    (hR : ∀ v w, P v → Q w → R (joinOps v w)) : ∀ w ∈ (a.mul b).words, R w := by
  refine fromTermsDict_in (dictIn_foldl_dictAdd _ _ (by intro w hw; simp at hw) (fun t ht => ?_))
  obtain ⟨s, hs, ht⟩ := List.mem_flatMap.1 ht
  obtain ⟨u, hu, rfl⟩ := List.mem_map.1 ht
  exact hR _ _ (ha _ (List.mem_map_of_mem hs)) (hb _ (List.mem_map_of_mem hu))

theorem good_add {a b : PExpr} (ha : a.Good) (hb : b.Good) : (a.add b).Good :=
  ⟨exprAdd_nodup a b, exprAdd_in ha.2 hb.2⟩

theorem good_sub {a b : PExpr} (ha : a.Good) (hb : b.Good) : (a.sub b).Good :=
  ⟨exprSub_nodup a b, exprSub_in ha.2 hb.2⟩

theorem good_mul {a b : PExpr} (ha : a.Good) (hb : b.Good) : (a.mul b).Good :=
  ⟨exprMul_nodup a b, exprMul_in ha.2 hb.2 (fun _ _ => joinOps_reduced)⟩

theorem good_powLoop {a : PExpr} (ha : a.Good) (k : ℕ) : ∀ v, v.Good → (a.powLoop k v).Good := by
  induction k with
  | zero => intro v h; exact h
  | succ k ih => intro v h; exact ih _ (good_mul h ha)

theorem good_fromTerm {t : PTerm} (h : Reduced t.ops) : (PExpr.fromTerm t).Good := by
  refine ⟨fromTerm_nodup t, ?_⟩
  rw [PExpr.fromTerm]; split_ifs
  · intro w hw; simp [PExpr.words] at hw; subst hw; exact h
  · intro w hw; simp [PExpr.words, PExpr.zero] at hw

theorem good_fromNumber (z : ℂ) : (PExpr.fromNumber z).Good := by
  rw [PExpr.fromNumber]; split_ifs
  · exact good_fromTerm reduced_nil
  · simp [PExpr.Good, PExpr.words, PExpr.zero]

theorem good_pow {a b : PExpr} {n : ℤ} (h : a.pow n = .ok b) (ha : a.Good) : b.Good := by
  rw [PExpr.pow] at h
  split_ifs at h with h1 h2
  · injection h with h; subst h; exact good_fromNumber _
  · injection h with h; subst h; exact good_powLoop ha _ _ ha

theorem good_sublist {a b : PExpr} (h : b.words.Sublist a.words) (ha : a.Good) : b.Good :=
  ⟨ha.1.sublist h, fun w hw => ha.2 w (h.subset hw)⟩

theorem reduced_fromPauli (p : Pauli) (c : ℂ) : Reduced (PTerm.fromPauli p c).ops := by
  cases p with
  | I => exact reduced_nil
  | op o => rw [PTerm.fromPauli]; split_ifs; exacts [reduced_nil, reduced_singleton o]

theorem reduced_pauliMul (p q : Pauli) : Reduced (p.mul q).ops := by
  cases p with
  | I => cases q <;> exact reduced_fromPauli _ _
  | op a =>
    cases q with
    | I => exact reduced_fromPauli _ _
    | op b =>
      rw [Pauli.mul]
      · split_ifs
        · exact reduced_fromPauli _ _
        · exact joinOps_reduced (reduced_singleton a) (reduced_singleton b)
      all_goals simp

/-- The words of an operand are reduced and, in an expression, different. -/
def PVal.Good : PVal → Prop
  | .num _ => True
  | .pauli _ => True
  | .term t => Reduced t.ops
  | .expr e => e.Good

theorem good_toExpr {v : PVal} (h : v.Good) : v.toExpr.Good := by
  cases v with
  | num x => exact good_fromNumber _
  | pauli p => exact good_fromTerm (reduced_fromPauli _ _)
  | term t => exact good_fromTerm h
  | expr e => exact h

theorem pvMul_good {a b : PVal} (ha : a.Good) (hb : b.Good) : (pvMul a b).Good := by
  cases a <;> cases b <;> simp only [pvMul, PVal.Good] at *
  case num.pauli x p => exact reduced_fromPauli _ _
  case num.term x t => exact hb
  case num.expr x e => exact good_sublist (exprScale_sublist _ _) hb
  case pauli.num x t => exact reduced_fromPauli _ _
  case pauli.pauli p q => exact reduced_pauliMul _ _
  case pauli.term p t =>
    cases p with
    | I => exact hb
    | op o => exact joinOps_reduced (reduced_singleton o) hb
  case pauli.expr p e => exact rmulTerm_good hb (reduced_fromPauli _ _)
  case term.num t x => exact ha
  case term.pauli t p =>
    cases p with
    | I => exact ha
    | op o => exact joinOps_reduced ha (reduced_singleton o)
  case term.term t s => exact joinOps_reduced ha hb
  case term.expr t e => exact rmulTerm_good hb ha
  case expr.num e x => exact good_sublist (exprScale_sublist _ _) ha
  case expr.pauli e p => exact mulTerm_good ha (reduced_fromPauli _ _)
  case expr.term e t => exact mulTerm_good ha hb
  case expr.expr e f => exact good_mul ha hb

end Blueqat
