import Verif.PauliRepr
import Verif.Spec.PauliRepr
import Verif.Props.Pauli
import Verif.QasmLemmas

/-!
# C80, C81: text and hash of Pauli operators, terms and expressions
-/

set_option linter.unusedSimpArgs false
set_option linter.unusedVariables false

namespace Blueqat

open Spec

noncomputable section

/-! ## Reading -/

/-- A product reads as a list of factors. -/
theorem mapM_some {α β : Type} {f : α → Option β} {l : List α} {r : List β} (h : List.Forall₂ (fun a b => f a = some b) l r) :
    l.mapM f = some r := by
  induction h with
  | nil => rfl
  | cons h1 h2 ih => simp [List.mapM_cons, h1, ih]

theorem splitChar_star (parts : List String) (hne : parts ≠ []) (h : ∀ p ∈ parts, '*' ∉ p.toList) :
    splitChar '*' (pyJoin "*" parts).toList = parts.map String.toList := by
  induction parts with
  | nil => exact absurd rfl hne
  | cons a rest ih =>
    cases rest with
    | nil => simp only [pyJoin, List.map_cons, List.map_nil]; exact splitChar_none _ _ (h a (by simp))
    | cons b rest =>
      have e : (pyJoin "*" (a :: b :: rest)).toList = a.toList ++ '*' :: (pyJoin "*" (b :: rest)).toList := by
        simp [pyJoin]
      rw [e, splitChar_append _ _ _ (h a (by simp)), ih (by simp) (fun p hp => h p (by simp [hp]))]
      rfl

theorem splitChar_blank (parts : List String) (hne : parts ≠ []) (h : ∀ p ∈ parts, ' ' ∉ p.toList) :
    splitChar ' ' (pyJoin " " parts).toList = parts.map String.toList := by
  induction parts with
  | nil => exact absurd rfl hne
  | cons a rest ih =>
    cases rest with
    | nil => simp only [pyJoin, List.map_cons, List.map_nil]; exact splitChar_none _ _ (h a (by simp))
    | cons b rest =>
      have e : (pyJoin " " (a :: b :: rest)).toList = a.toList ++ ' ' :: (pyJoin " " (b :: rest)).toList := by
        simp [pyJoin]
      rw [e, splitChar_append _ _ _ (h a (by simp)), ih (by simp) (fun p hp => h p (by simp [hp]))]
      rfl

/-- No plus sign follows `I` or `]`. -/
def PlusFree (s : List Char) : Prop := List.IsChain (fun a b => ¬ (b = '+' ∧ (a = 'I' ∨ a = ']'))) s

theorem spaced_free {s : List Char} (h : PlusFree s) : spaced s = s := by
  induction s with
  | nil => rfl
  | cons a s ih =>
    cases s with
    | nil => rfl
    | cons b s =>
      rw [PlusFree, List.isChain_cons_cons] at h
      rw [spaced, if_neg h.1, ih h.2]

theorem plusFree_of_chars {s : List Char} (h : ∀ c ∈ s, c ≠ 'I' ∧ c ≠ ']') : PlusFree s := by
  induction s with
  | nil => exact List.isChain_nil
  | cons a s ih =>
    cases s with
    | nil => exact List.isChain_singleton _
    | cons b s =>
      refine List.isChain_cons_cons.2 ⟨?_, ih fun c hc => h c (by simp only [List.mem_cons] at hc ⊢; tauto)⟩
      rintro ⟨-, e | e⟩
      · exact (h a (by simp)).1 e
      · exact (h a (by simp)).2 e

theorem plusFree_append {s r : List Char} (h1 : PlusFree s) (h2 : PlusFree r) (h : r.head? ≠ some '+') : PlusFree (s ++ r) := by
  rw [PlusFree, List.isChain_append]
  refine ⟨h1, h2, fun x hx y hy => ?_⟩
  rintro ⟨rfl, -⟩
  exact h hy

/-- A factor with its text: nothing in the text separates factors or terms or looks like a sign. -/
structure FactorText (lit : List Char → Option PyNum) (s : String) (f : Formula) : Prop where
  read : readFactor lit s.toList = some f
  head : s.toList ≠ [] ∧ s.toList.head? ≠ some '-' ∧ s.toList.head? ≠ some '+'
  chars : ' ' ∉ s.toList ∧ '*' ∉ s.toList
  free : PlusFree s.toList
  atom : (∃ x, f = .num x) ∨ ∃ p, f = .pauli p

theorem factorText_I (lit : List Char → Option PyNum) : FactorText lit "I" (.pauli .I) :=
  ⟨rfl, by decide, by decide, List.isChain_singleton _, .inr ⟨_, rfl⟩⟩

theorem factorText_lit {lit : List Char → Option PyNum} (h : PlainLit lit) {s : String} {x : PyNum}
    (hs : lit s.toList = some x) : FactorText lit s (.num x) := by
  have hc := h.chars _ _ hs
  refine ⟨?_, h.head _ _ hs, ⟨fun hm => (hc _ hm).1 rfl, fun hm => (hc _ hm).2.1 rfl⟩,
    plusFree_of_chars fun c hm => ⟨(hc c hm).2.2.1, (hc c hm).2.2.2.2⟩, .inl ⟨x, rfl⟩⟩
  rw [readFactor.eq_def]
  split
  · rename_i e; rw [e] at hc; exact absurd rfl (hc 'I' (by simp)).2.2.1
  · rename_i e; rw [e] at hc; exact absurd rfl (hc '[' (by simp)).2.2.2.1
  · rw [hs]; rfl

theorem opRepr_toList (o : POp) : ∃ c, readLetter c = some o.p ∧ c ≠ ' ' ∧ c ≠ '*' ∧ c ≠ '-' ∧ c ≠ '+' ∧ c ≠ ']' ∧
    o.repr.toList = c :: '[' :: ((toString o.n).toList ++ [']']) := by
  obtain ⟨p, n⟩ := o
  cases p
  · exact ⟨'X', rfl, by decide, by decide, by decide, by decide, by decide, by simp [POp.repr]⟩
  · exact ⟨'Y', rfl, by decide, by decide, by decide, by decide, by decide, by simp [POp.repr]⟩
  · exact ⟨'Z', rfl, by decide, by decide, by decide, by decide, by decide, by simp [POp.repr]⟩

theorem factorText_op (lit : List Char → Option PyNum) (o : POp) : FactorText lit o.repr (.pauli (.op o)) := by
  obtain ⟨c, hc, h1, h2, h3, h4, h5, e⟩ := opRepr_toList o
  have hd : ∀ x ∈ (toString o.n).toList, x ≠ ' ' ∧ x ≠ '*' ∧ x ≠ '+' ∧ x ≠ 'I' ∧ x ≠ ']' := by
    intro x hx
    have := digit_of_mem _ _ hx
    refine ⟨?_, ?_, ?_, ?_, ?_⟩ <;> (rintro rfl; revert this; decide)
  have hn : (String.ofList (toString o.n).toList).toNat? = some o.n := by
    rw [String.ofList_toList]; exact Nat.toNat?_repr o.n
  refine ⟨?_, ?_, ?_, ?_, .inr ⟨_, rfl⟩⟩
  · rw [e, readFactor, List.dropLast_concat, hc, hn]
    simp
  · rw [e]; simp [h3, h4]
  · rw [e]
    simp only [List.mem_cons, List.mem_append, List.not_mem_nil, or_false, not_or]
    exact ⟨⟨h1.symm, by decide, fun h => (hd _ h).1 rfl, by decide⟩, h2.symm, by decide, fun h => (hd _ h).2.1 rfl, by decide⟩
  · rw [e]
    refine List.isChain_cons_cons.2 ⟨by simp, ?_⟩
    rw [← List.cons_append]
    refine plusFree_append (plusFree_of_chars ?_) (List.isChain_singleton _) (by simp)
    intro x hx
    rcases List.mem_cons.1 hx with rfl | hx
    · decide
    · exact ⟨(hd _ hx).2.2.2.1, (hd _ hx).2.2.2.2⟩

theorem op_neg_mul (a b : Operator) : -a * b = -(a * b) := rfl

theorem fold_op (g : Formula) (fs : List Formula) : (fs.foldl .mul g).op = g.op * (fs.map Formula.op).prod := by
  induction fs generalizing g with
  | nil => simp
  | cons f fs ih => rw [List.foldl_cons, ih, List.map_cons, List.prod_cons, Formula.op, mul_assoc]

theorem fold_accepted (g : Formula) (fs : List Formula) (hg : g.Accepted ∧ g.NoTermPower)
    (h : ∀ f ∈ fs, (∃ x, f = .num x) ∨ ∃ p, f = .pauli p) :
    (fs.foldl .mul g).Accepted ∧ (fs.foldl .mul g).NoTermPower := by
  induction fs generalizing g with
  | nil => exact hg
  | cons f fs ih =>
    refine ih (.mul g f) ?_ fun f hf => h f (by simp [hf])
    rcases h f (by simp) with ⟨x, rfl⟩ | ⟨p, rfl⟩ <;> exact ⟨⟨hg.1, trivial⟩, hg.2, trivial⟩

theorem fold_kind (g : Formula) (fs : List Formula) (hg : g.kind = .term)
    (h : ∀ f ∈ fs, (∃ x, f = .num x) ∨ ∃ p, f = .pauli p) : (fs.foldl .mul g).kind = .term := by
  induction fs generalizing g with
  | nil => exact hg
  | cons f fs ih =>
    refine ih (.mul g f) ?_ fun f hf => h f (by simp [hf])
    rcases h f (by simp) with ⟨x, rfl⟩ | ⟨p, rfl⟩ <;> simp [Formula.kind, hg]

/-- `-` or nothing. -/
def signText (neg : Bool) : String := if neg then "-" else ""

/-- `-f` or `f`. -/
def signed (neg : Bool) (f : Formula) : Formula := if neg then .neg f else f

/-- The text of a term is a product, with its sign. -/
theorem term_text {lit : List Char → Option PyNum} (hl : PlainLit lit) (fmt : ℂ → String) (t : PTerm)
    (ht : NumText lit (fmt t.coeff) t.coeff) :
    ∃ neg p ps f fs, t.repr fmt = signText neg ++ pyJoin "*" (p :: ps) ∧
      List.Forall₂ (FactorText lit) (p :: ps) (f :: fs) ∧
      (fs.foldl .mul (signed neg f)).op = termOp t ∧ (fs.foldl .mul (signed neg f)).kind = .term := by
  -- the operators
  obtain ⟨p, ps, q, qs, e1, e2, e3⟩ : ∃ p ps q qs,
      (if t.ops = [] then "I" else pyJoin "*" (t.ops.map POp.repr)) = pyJoin "*" (p :: ps) ∧
      List.Forall₂ (FactorText lit) (p :: ps) (Formula.pauli q :: qs) ∧
      (((Formula.pauli q :: qs).map Formula.op).prod = wordOp t.ops) := by
    cases ho : t.ops with
    | nil =>
      exact ⟨"I", [], .I, [], by simp [pyJoin], .cons (factorText_I lit) .nil, by simp [Formula.op, pauliOp, wordOp]⟩
    | cons o os =>
      refine ⟨o.repr, os.map POp.repr, .op o, os.map fun o => .pauli (.op o), by simp, ?_, ?_⟩
      · refine .cons (factorText_op lit o) ?_
        rw [List.forall₂_map_left_iff, List.forall₂_map_right_iff, List.forall₂_same]
        exact fun o _ => factorText_op lit o
      · simp [Formula.op, pauliOp, wordOp, Function.comp_def]
  have hat : ∀ f ∈ qs, (∃ x, f = .num x) ∨ ∃ p, f = .pauli p := by
    intro f hf
    obtain ⟨_, h2⟩ := List.forall₂_cons.1 e2
    obtain ⟨i, hi, rfl⟩ := List.mem_iff_getElem.1 hf
    have := List.Forall₂.get h2 (by rw [h2.length_eq]; exact hi) hi
    exact this.atom
  by_cases h0 : t.coeff = 0
  · have h00 : FactorText lit "0" (.num (.real 0)) := factorText_lit hl (s := "0") hl.zero
    refine ⟨false, "0", ["I"], .num (.real 0), [.pauli .I], by simp [PTerm.repr, h0, signText, pyJoin],
      .cons h00 (.cons (factorText_I lit) .nil), ?_, ?_⟩
    · simp [signed, Formula.op, termOp, h0, PyNum.val]
    · simp [signed, Formula.kind]
  by_cases h1 : t.coeff = -1
  · refine ⟨true, p, ps, .pauli q, qs, ?_, e2, ?_, ?_⟩
    · simp only [PTerm.repr, h0, h1, if_false, if_true, signText, e1]
      norm_num
    · rw [fold_op]
      simp only [List.map_cons, List.prod_cons] at e3
      simp only [signed, if_true, Formula.op, op_neg_mul, termOp, h1, ← e3]
      module
    · exact fold_kind _ _ (by simp [signed, Formula.kind]) hat
  have hjoin : ∀ u : String, u ++ "*" ++ pyJoin "*" (p :: ps) = pyJoin "*" (u :: p :: ps) := fun u => rfl
  have htext : t.repr fmt = fmt t.coeff ++ "*" ++ pyJoin "*" (p :: ps) := by
    simp only [PTerm.repr, h0, h1, if_false, e1]
  have hops : ∀ g : Formula, ((Formula.pauli q :: qs).foldl .mul g).op = g.op * wordOp t.ops := by
    intro g; rw [fold_op, e3]
  rcases ht with ⟨x, hx, hv⟩ | ⟨u, x, hu, hx, hv⟩
  · refine ⟨false, fmt t.coeff, p :: ps, .num x, .pauli q :: qs, ?_, .cons (factorText_lit hl hx) e2, ?_, ?_⟩
    · rw [htext, hjoin]; simp [signText]
    · rw [hops]; simp [signed, Formula.op, termOp, hv]
    · rw [List.foldl_cons]; exact fold_kind _ _ (by simp [signed, Formula.kind]) hat
  · have hu' : fmt t.coeff = "-" ++ String.ofList u := by
      rw [← String.toList_inj, hu]; simp
    refine ⟨true, String.ofList u, p :: ps, .num x, .pauli q :: qs, ?_,
      .cons (factorText_lit hl (by rw [String.toList_ofList]; exact hx)) e2, ?_, ?_⟩
    · rw [htext, hu', ← hjoin]; simp [signText, String.append_assoc]
    · rw [hops]
      simp only [signed, if_true, Formula.op, op_neg_mul, termOp, ← hv, smul_mul_assoc, one_mul]
      module
    · rw [List.foldl_cons]; exact fold_kind _ _ (by simp [signed, Formula.kind]) hat

theorem join_cons_toList (sep : Char) (s : String) (hs : s.toList = [sep]) (a b : String) (rest : List String) :
    (pyJoin s (a :: b :: rest)).toList = a.toList ++ sep :: (pyJoin s (b :: rest)).toList := by
  simp [pyJoin, hs]

theorem join_head (s : String) (p : String) (ps : List String) (hp : p.toList ≠ []) :
    (pyJoin s (p :: ps)).toList.head? = p.toList.head? := by
  cases ps with
  | nil => rfl
  | cons b rest =>
    simp only [pyJoin, String.toList_append, List.append_assoc]
    rw [List.head?_append_of_ne_nil _ hp]

theorem join_free (sep : Char) (s : String) (hs : s.toList = [sep]) (h1 : sep ≠ '+') (h2 : sep ≠ 'I') (h3 : sep ≠ ']')
    (ps : List String) (h : ∀ p ∈ ps, PlusFree p.toList) : PlusFree (pyJoin s ps).toList := by
  induction ps with
  | nil => exact List.isChain_nil
  | cons a rest ih =>
    cases rest with
    | nil => exact h a (by simp)
    | cons b rest =>
      rw [join_cons_toList sep s hs]
      refine plusFree_append (h a (by simp)) ?_ (by simpa using h1)
      have := ih fun p hp => h p (by simp only [List.mem_cons] at hp ⊢; exact .inr hp)
      revert this
      cases (pyJoin s (b :: rest)).toList with
      | nil => exact fun _ => List.isChain_singleton _
      | cons c r =>
        intro hc
        refine List.isChain_cons_cons.2 ⟨?_, hc⟩
        rintro ⟨-, e | e⟩
        · exact h2 e
        · exact h3 e

theorem join_mem (c : Char) (s : String) (hs : c ∉ s.toList) (ps : List String) (h : ∀ p ∈ ps, c ∉ p.toList) :
    c ∉ (pyJoin s ps).toList := by
  induction ps with
  | nil => simp [pyJoin]
  | cons a rest ih =>
    cases rest with
    | nil => exact h a (by simp)
    | cons b rest =>
      have := ih fun p hp => h p (by simp only [List.mem_cons] at hp ⊢; exact .inr hp)
      simp only [pyJoin, String.toList_append, List.mem_append, not_or]
      exact ⟨⟨h a (by simp), hs⟩, this⟩

/-- What the reader sees of a product. -/
structure ProductText (lit : List Char → Option PyNum) (s : String) (f : Formula) (fs : List Formula) : Prop where
  plus : readProduct lit s.toList = some (fs.foldl .mul f)
  minus : readProduct lit ('-' :: s.toList) = some (fs.foldl .mul (.neg f))
  head : s.toList ≠ [] ∧ s.toList.head? ≠ some '-' ∧ s.toList.head? ≠ some '+'
  blank : ' ' ∉ s.toList
  free : PlusFree s.toList
  atoms : ∀ g ∈ f :: fs, (∃ x, g = .num x) ∨ ∃ p, g = .pauli p

theorem factors_left {α β : Type} {R : α → β → Prop} {l : List α} {r : List β} (h : List.Forall₂ R l r) :
    ∀ a ∈ l, ∃ b, R a b := by
  induction h with
  | nil => simp
  | cons h1 _ ih =>
    intro a ha
    rcases List.mem_cons.1 ha with rfl | ha
    · exact ⟨_, h1⟩
    · exact ih a ha

theorem factors_right {α β : Type} {R : α → β → Prop} {l : List α} {r : List β} (h : List.Forall₂ R l r) :
    ∀ b ∈ r, ∃ a, R a b := by
  induction h with
  | nil => simp
  | cons h1 _ ih =>
    intro a ha
    rcases List.mem_cons.1 ha with rfl | ha
    · exact ⟨_, h1⟩
    · exact ih a ha

theorem productText {lit : List Char → Option PyNum} {p : String} {ps : List String} {f : Formula} {fs : List Formula}
    (h : List.Forall₂ (FactorText lit) (p :: ps) (f :: fs)) : ProductText lit (pyJoin "*" (p :: ps)) f fs := by
  have hm : (splitChar '*' (pyJoin "*" (p :: ps)).toList).mapM (readFactor lit) = some (f :: fs) := by
    rw [splitChar_star _ (by simp) fun q hq => (factors_left h q hq).choose_spec.chars.2]
    apply mapM_some
    rw [List.forall₂_map_left_iff]
    exact h.imp fun _ _ h => h.read
  have hp := (List.forall₂_cons.1 h).1.head
  have hh := join_head "*" p ps hp.1
  have hhead : (pyJoin "*" (p :: ps)).toList ≠ [] ∧ (pyJoin "*" (p :: ps)).toList.head? ≠ some '-' ∧
      (pyJoin "*" (p :: ps)).toList.head? ≠ some '+' := by
    rw [hh]
    refine ⟨fun e => ?_, hp.2⟩
    rw [e] at hh
    exact hp.1 (List.head?_eq_none_iff.1 hh.symm)
  refine ⟨?_, ?_, hhead, ?_, ?_, fun g hg => (factors_right h g hg).choose_spec.atom⟩
  · rw [readProduct.eq_def]
    split
    · rename_i e; rw [e] at hhead; exact absurd rfl hhead.2.1
    · rw [hm]
  · rw [readProduct, hm]
  · exact join_mem ' ' "*" (by decide) _ fun q hq => (factors_left h q hq).choose_spec.chars.1
  · exact join_free '*' "*" rfl (by decide) (by decide) (by decide) _
      fun q hq => (factors_left h q hq).choose_spec.free

/-- The text of a term with its sign. -/
theorem term_read {lit : List Char → Option PyNum} (hl : PlainLit lit) (fmt : ℂ → String) (t : PTerm)
    (ht : NumText lit (fmt t.coeff) t.coeff) :
    ∃ neg s f fs, t.repr fmt = signText neg ++ s ∧ ProductText lit s f fs ∧
      (fs.foldl .mul (signed neg f)).op = termOp t ∧ (fs.foldl .mul (signed neg f)).kind = .term := by
  obtain ⟨neg, p, ps, f, fs, e1, e2, e3, e4⟩ := term_text hl fmt t ht
  exact ⟨neg, _, f, fs, e1, productText e2, e3, e4⟩

theorem signText_toList (neg : Bool) (s : String) :
    (signText neg ++ s).toList = if neg then '-' :: s.toList else s.toList := by
  cases neg <;> simp [signText]

theorem atom_ok {f : Formula} (h : (∃ x, f = .num x) ∨ ∃ p, f = .pauli p) (neg : Bool) :
    (signed neg f).Accepted ∧ (signed neg f).NoTermPower := by
  rcases h with ⟨x, rfl⟩ | ⟨p, rfl⟩ <;> cases neg <;> exact ⟨trivial, trivial⟩

/-- The whole text of a term is a product. -/
theorem term_whole {lit : List Char → Option PyNum} (hl : PlainLit lit) (fmt : ℂ → String) (t : PTerm)
    (ht : NumText lit (fmt t.coeff) t.coeff) :
    ∃ F, readProduct lit (t.repr fmt).toList = some F ∧ F.op = termOp t ∧ F.kind = .term ∧ F.Accepted ∧ F.NoTermPower ∧
      ' ' ∉ (t.repr fmt).toList ∧ PlusFree (t.repr fmt).toList := by
  obtain ⟨neg, s, f, fs, e1, e2, e3, e4⟩ := term_read hl fmt t ht
  have hok := fold_accepted (signed neg f) fs (atom_ok (e2.atoms f (by simp)) neg) fun g hg => e2.atoms g (by simp [hg])
  refine ⟨_, ?_, e3, e4, hok.1, hok.2, ?_⟩
  · rw [e1, signText_toList]
    cases neg
    · exact e2.plus
    · exact e2.minus
  · rw [e1, signText_toList]
    cases neg
    · exact ⟨e2.blank, e2.free⟩
    · refine ⟨?_, ?_⟩
      · simp [e2.blank]
      · exact plusFree_append (s := ['-']) (List.isChain_singleton _) e2.free e2.head.2.2

/-- The terms after the first. -/
theorem terms_read {lit : List Char → Option PyNum} (hl : PlainLit lit) (fmt : ℂ → String) (ts : List PTerm)
    (ht : ∀ t ∈ ts, NumText lit (fmt t.coeff) t.coeff) (acc : Formula) (hacc : acc.Accepted ∧ acc.NoTermPower)
    (hk : acc.kind ≠ .num) :
    ∃ F, readSum lit acc ((ts.flatMap fun t => exprReprStep (t.repr fmt)).map String.toList) = some F ∧
      F.op = acc.op + (ts.map termOp).sum ∧ F.Accepted ∧ F.NoTermPower ∧ F.kind = (if ts = [] then acc.kind else .expr) ∧
      ∀ s ∈ ts.flatMap fun t => exprReprStep (t.repr fmt), ' ' ∉ s.toList ∧ PlusFree s.toList := by
  induction ts generalizing acc with
  | nil => exact ⟨acc, rfl, by simp, hacc.1, hacc.2, by simp, by simp⟩
  | cons t ts ih =>
    obtain ⟨neg, s, f, fs, e1, e2, e3, e4⟩ := term_read hl fmt t (ht t (by simp))
    have hat : ∀ g ∈ fs, (∃ x, g = .num x) ∨ ∃ p, g = .pauli p := fun g hg => e2.atoms g (by simp [hg])
    have hok := fold_accepted f fs (atom_ok (e2.atoms f (by simp)) false) hat
    have hstep : exprReprStep (t.repr fmt) = [if neg then "-" else "+", s] := by
      rw [exprReprStep, e1, signText_toList]
      cases neg
      · simp only [Bool.false_eq_true, if_false]
        split
        · rename_i e; exact absurd (by rw [e]; rfl) e2.head.2.2
        · rename_i e; exact absurd (by rw [e]; rfl) e2.head.2.1
        · simp [signText]
      · simp
    have hfree : ∀ x ∈ exprReprStep (t.repr fmt), ' ' ∉ x.toList ∧ PlusFree x.toList := by
      rw [hstep]
      intro x hx
      simp only [List.mem_cons, List.not_mem_nil, or_false] at hx
      rcases hx with rfl | rfl
      · cases neg
        · exact ⟨by decide, List.isChain_singleton _⟩
        · exact ⟨by decide, List.isChain_singleton _⟩
      · exact ⟨e2.blank, e2.free⟩
    have hneg : (fs.foldl Formula.mul (Formula.neg f)).op = -(fs.foldl .mul f).op := by
      rw [fold_op, fold_op, Formula.op, op_neg_mul]
    let acc' : Formula := if neg then .sub acc (fs.foldl .mul f) else .add acc (fs.foldl .mul f)
    have hop : acc'.op = acc.op + termOp t := by
      rw [← e3]
      cases neg
      · simp [acc', Formula.op, signed]
      · simp only [acc', if_true, Formula.op, signed, hneg, sub_eq_add_neg]
    have hacc' : acc'.Accepted ∧ acc'.NoTermPower := by
      cases neg <;> exact ⟨⟨hacc.1, hok.1⟩, hacc.2, hok.2⟩
    have hk' : acc'.kind = .expr := by
      cases neg <;> simp [acc', Formula.kind, hk]
    obtain ⟨F, h1, h2, h3, h4, h5, h6⟩ := ih (fun t h => ht t (by simp [h])) acc' hacc' (by rw [hk']; decide)
    refine ⟨F, ?_, ?_, h3, h4, ?_, ?_⟩
    · rw [List.flatMap_cons, hstep]
      simp only [List.cons_append, List.nil_append, List.map_cons, readSum, e2.plus]
      cases neg
      · simpa [acc'] using h1
      · simpa [acc'] using h1
    · rw [h2, hop, List.map_cons, List.sum_cons, add_assoc]
    · rw [h5, hk']; simp
    · intro x hx
      rw [List.flatMap_cons, List.mem_append] at hx
      rcases hx with hx | hx
      · exact hfree x hx
      · exact h6 x hx

/-! ## C80 -/

theorem evaluate {F : Formula} (h : F.Accepted ∧ F.NoTermPower) : ∃ v, F.py = .ok v ∧ valOp v = F.op ∧ kindOf v = F.kind := by
  obtain ⟨v, hv⟩ := C33_defined F h.1
  exact ⟨v, hv, C33_arithmetic_partial F (.inl h.2) v hv, kind_py F v hv⟩

/-- C80. The text of a Pauli operator reads as the operator. -/
theorem C80_pauli (lit : List Char → Option PyNum) (p : Pauli) :
    readPauli lit p.repr = some (.pauli p) ∧ (Formula.pauli p).py = .ok (.pauli p) := by
  refine ⟨?_, rfl⟩
  obtain ⟨s, hs, e⟩ : ∃ s, FactorText lit s (.pauli p) ∧ p.repr = s := by
    cases p with
    | I => exact ⟨_, factorText_I lit, rfl⟩
    | op o => exact ⟨_, factorText_op lit o, rfl⟩
  have h := productText (List.Forall₂.cons hs .nil)
  simp only [pyJoin] at h
  rw [readPauli, e, spaced_free h.free, splitChar_none _ _ h.blank]
  simp only [h.plus, List.foldl_nil, readSum]

/-- C80. The text of a term with a non-zero coefficient, evaluated by Python, is a term that compares equal to it. -/
theorem C80_term_partial (lit : List Char → Option PyNum) (hl : PlainLit lit) (fmt : ℂ → String) (t : PTerm)
    (ht : NumText lit (fmt t.coeff) t.coeff) (h0 : t.coeff ≠ 0) :
    ∃ F s, readPauli lit (t.repr fmt) = some F ∧ F.py = .ok (.term s) ∧
      pvEq (.term s) (.term t) = some (.ok true) ∧ pvEq (.term t) (.term s) = some (.ok true) := by
  obtain ⟨F, h1, h2, h3, h4, h5, h6, h7⟩ := term_whole hl fmt t ht
  obtain ⟨v, hv, ho, hk⟩ := evaluate ⟨h4, h5⟩
  rw [h3] at hk
  cases v with
  | term s =>
    refine ⟨F, s, ?_, hv, ?_⟩
    · rw [readPauli, spaced_free h7, splitChar_none _ _ h6]
      simp only [h1, readSum]
    · have he : t.eq s = true := (termEq_iff h0).2 (by rw [← h2, ← ho]; rfl)
      simp only [pvEq, he, termEq_comm s t, and_self]
  | _ => cases hk

/-- The text of an expression, evaluated by Python, is a value of the same operator: an expression, or a term if the
expression has one term only. -/
theorem expr_value (lit : List Char → Option PyNum) (hl : PlainLit lit) (fmt : ℂ → String) (e : PExpr)
    (he : ∀ t ∈ e.terms, NumText lit (fmt t.coeff) t.coeff) :
    ∃ F v, readPauli lit (e.repr fmt) = some F ∧ F.py = .ok v ∧ valOp v = exprOp e ∧
      kindOf v = if e.terms.length = 1 then .term else .expr := by
  obtain ⟨terms⟩ := e
  cases terms with
  | nil =>
    have hr : readPauli lit (PExpr.repr fmt ⟨[]⟩) = some (.add (.mul (.num (.real 0)) (.pauli .I)) (.num (.real 0))) := by
      have e1 : splitChar ' ' (spaced (PExpr.repr fmt ⟨[]⟩).toList) = [['0', '*', 'I'], ['+'], ['0']] := by
        show splitChar ' ' (spaced "0*I+0".toList) = _
        decide
      have hI := readFactor.eq_1 lit
      have h00 := factorText_lit hl (s := "0") hl.zero
      have h1 := (productText (.cons h00 (.cons (factorText_I lit) .nil))).plus
      have h2 := (productText (.cons h00 .nil)).plus
      rw [readPauli, e1]
      simp only [show ['0', '*', 'I'] = (pyJoin "*" ["0", "I"]).toList from rfl, show ['0'] = (pyJoin "*" ["0"]).toList from rfl,
        h1, h2, List.foldl_cons, List.foldl_nil, readSum, if_true]
    obtain ⟨v, hv, ho, hk⟩ := evaluate (F := .add (.mul (.num (.real 0)) (.pauli .I)) (.num (.real 0)))
      ⟨⟨⟨trivial, trivial⟩, trivial⟩, ⟨trivial, trivial⟩, trivial⟩
    refine ⟨_, v, hr, hv, ?_, ?_⟩
    · rw [ho]; simp [Formula.op, exprOp, PyNum.val]
    · rw [hk]; simp [Formula.kind]
  | cons t ts =>
    obtain ⟨G, h1, h2, h3, h4, h5, h6, h7⟩ := term_whole hl fmt t (he t (by simp))
    obtain ⟨F, g1, g2, g3, g4, g5, g6⟩ := terms_read hl fmt ts (fun s hs => he s (by simp [hs])) G ⟨h4, h5⟩
      (by rw [h3]; decide)
    obtain ⟨v, hv, ho, hk⟩ := evaluate ⟨g3, g4⟩
    refine ⟨F, v, ?_, hv, ?_, ?_⟩
    · have hall : ∀ s ∈ t.repr fmt :: ts.flatMap (fun t => exprReprStep (t.repr fmt)), ' ' ∉ s.toList ∧ PlusFree s.toList := by
        intro s hs
        rcases List.mem_cons.1 hs with rfl | hs
        · exact ⟨h6, h7⟩
        · exact g6 s hs
      rw [readPauli, PExpr.repr, spaced_free (join_free ' ' " " rfl (by decide) (by decide) (by decide) _ fun s hs => (hall s hs).2),
        splitChar_blank _ (by simp) fun s hs => (hall s hs).1]
      simp only [List.map_cons, h1]
      exact g1
    · rw [ho, g2, h2]; simp [exprOp]
    · rw [hk, g5, h3]
      cases ts <;> simp

/-- C80. The text of an expression, evaluated by Python, compares equal to the expression: always with the expression
on the left, and also with the value on the left unless the expression has exactly one term. -/
theorem C80_expr_partial (lit : List Char → Option PyNum) (hl : PlainLit lit) (fmt : ℂ → String) (e : PExpr)
    (he : ∀ t ∈ e.terms, NumText lit (fmt t.coeff) t.coeff) :
    ∃ F v, readPauli lit (e.repr fmt) = some F ∧ F.py = .ok v ∧ pvEq (.expr e) v = some (.ok true) ∧
      (e.terms.length ≠ 1 → pvEq v (.expr e) = some (.ok true)) := by
  obtain ⟨F, v, h1, h2, h3, h4⟩ := expr_value lit hl fmt e he
  refine ⟨F, v, h1, h2, ?_, ?_⟩
  · split_ifs at h4 with hn
    · cases v with
      | term s => rw [pvEq, (exprEq_iff e (.fromTerm s)).2 (by rw [fromTerm_op, ← h3]; rfl)]
      | _ => cases h4
    · cases v with
      | expr f => rw [pvEq, (exprEq_iff e f).2 h3.symm]
      | _ => cases h4
  · intro hn
    rw [if_neg hn] at h4
    cases v with
    | expr f => rw [pvEq, (exprEq_iff f e).2 h3]
    | _ => cases h4

/-- C80 is false for an expression of one term: its text reads as a term, and `term == expr` is False. -/
theorem C80_single_refuted (lit : List Char → Option PyNum) (hl : PlainLit lit) (fmt : ℂ → String) (t : PTerm)
    (ht : NumText lit (fmt t.coeff) t.coeff) :
    ∃ F v, readPauli lit (PExpr.repr fmt ⟨[t]⟩) = some F ∧ F.py = .ok v ∧ pvEq v (.expr ⟨[t]⟩) = some (.ok false) := by
  obtain ⟨F, v, h1, h2, h3, h4⟩ := expr_value lit hl fmt ⟨[t]⟩ (by simpa using ht)
  refine ⟨F, v, h1, h2, ?_⟩
  cases v with
  | term s => rfl
  | _ => cases h4

/-- C80 is false for a term with coefficient 0, such as `X[0]*Z[0]*0`: its text is `0*I`, which is another term. -/
theorem C80_zero_refuted (lit : List Char → Option PyNum) (hl : PlainLit lit) (fmt : ℂ → String) :
    ∃ (t : PTerm) (F : Formula) (s : PTerm), (Formula.mul (.mul (.pauli (.op ⟨.X, 0⟩)) (.pauli (.op ⟨.Z, 1⟩))) (.num (.real 0))).py =
        .ok (.term t) ∧ readPauli lit (t.repr fmt) = some F ∧ F.py = .ok (.term s) ∧
      pvEq (.term s) (.term t) = some (.ok false) := by
  have hp : (Formula.mul (.mul (.pauli (.op ⟨.X, 0⟩)) (.pauli (.op ⟨.Z, 1⟩))) (.num (.real 0))).py =
        .ok (.term ⟨[⟨.X, 0⟩, ⟨.Z, 1⟩], 0⟩) := by
    simp [Formula.py, bind, Except.bind, pvMul, Pauli.mul, PTerm.fromPauliPair, joinOps, joinLoop, PTerm.scale, PyNum.val]
  have h00 := factorText_lit hl (s := "0") hl.zero
  have h := productText (.cons h00 (.cons (factorText_I lit) .nil))
  refine ⟨_, .mul (.num (.real 0)) (.pauli .I), ⟨[], 0⟩, hp, ?_, ?_, ?_⟩
  · have e : PTerm.repr fmt ⟨[⟨.X, 0⟩, ⟨.Z, 1⟩], 0⟩ = pyJoin "*" ["0", "I"] := by simp [PTerm.repr, pyJoin]
    rw [readPauli, e, spaced_free h.free, splitChar_none _ _ h.blank]
    simp only [h.plus, List.foldl_cons, List.foldl_nil, readSum]
  · simp [Formula.py, bind, Except.bind, pvMul, PTerm.fromPauli, PyNum.val]
  · have h1 : (⟨[], 0⟩ : PTerm).simplify = ⟨[], 0⟩ := simplify_of_normal _ List.Pairwise.nil
    have h2 : (⟨[⟨.X, 0⟩, ⟨.Z, 1⟩], 0⟩ : PTerm).simplify = ⟨[⟨.X, 0⟩, ⟨.Z, 1⟩], 0⟩ := simplify_of_normal _ (by simp [NormalWord])
    simp [pvEq, PTerm.eq, h1, h2]

/-- The hypotheses of C80 are met by `2*X[0]*Y[1] - 2*Z[0] - X[2]`. -/
example : ∃ (lit : List Char → Option PyNum) (fmt : ℂ → String) (e : PExpr), PlainLit lit ∧
    (∀ t ∈ e.terms, NumText lit (fmt t.coeff) t.coeff) ∧ e.repr fmt = "2*X[0]*Y[1] - 2*Z[0] - X[2]" ∧
    exprOp e = (2 : ℂ) • (opOp ⟨.X, 0⟩ * opOp ⟨.Y, 1⟩) - (2 : ℂ) • opOp ⟨.Z, 0⟩ - opOp ⟨.X, 2⟩ := by
  classical
  refine ⟨fun s => if s = ['0'] then some (.real 0) else if s = ['1'] then some (.real 1) else
      if s = ['2'] then some (.real 2) else none,
    fun z => if z = 2 then "2" else if z = -2 then "-2" else "-1",
    ⟨[⟨[⟨.X, 0⟩, ⟨.Y, 1⟩], 2⟩, ⟨[⟨.Z, 0⟩], -2⟩, ⟨[⟨.X, 2⟩], -1⟩]⟩, ⟨?_, ?_, by simp⟩, ?_, ?_, ?_⟩
  · intro s x h
    split_ifs at h with h1 h2 h3 <;> (first | subst h1 | subst h2 | subst h3) <;> decide
  · intro s x h
    split_ifs at h with h1 h2 h3 <;> (first | subst h1 | subst h2 | subst h3) <;> decide
  · intro t ht
    simp only [List.mem_cons, List.not_mem_nil, or_false] at ht
    rcases ht with rfl | rfl | rfl
    · exact .inl ⟨.real 2, by simp, by simp [PyNum.val]⟩
    · refine .inr ⟨['2'], .real 2, ?_, by simp, by simp [PyNum.val]⟩
      norm_num
      rfl
    · refine .inr ⟨['1'], .real 1, ?_, by simp, by simp [PyNum.val]⟩
      norm_num
      rfl
  · have e1 : exprReprStep "-2*Z[0]" = ["-", "2*Z[0]"] := by decide
    have e2 : exprReprStep "-X[2]" = ["-", "X[2]"] := by decide
    have r1 : (⟨.Z, 0⟩ : POp).repr = "Z[0]" := by decide
    have r2 : (⟨.X, 2⟩ : POp).repr = "X[2]" := by decide
    have r3 : (⟨.X, 0⟩ : POp).repr = "X[0]" := by decide
    have r4 : (⟨.Y, 1⟩ : POp).repr = "Y[1]" := by decide
    have n1 : ¬ ((2 : ℂ) = -1) := by norm_num
    have n2 : ¬ ((-2 : ℂ) = 2) := by norm_num
    have n3 : ¬ ((2 : ℂ) = 0) := by norm_num
    have n4 : ¬ ((-2 : ℂ) = 0) := by norm_num
    have n5 : ¬ ((-2 : ℂ) = -1) := by norm_num
    have n6 : ¬ ((-1 : ℂ) = 0) := by norm_num
    simp only [PExpr.repr, PTerm.repr, n1, n2, n3, n4, n5, n6, if_true, if_false, List.map_cons, List.map_nil, r1, r2, r3, r4,
      List.flatMap_cons, List.flatMap_nil, reduceCtorEq, pyJoin]
    rw [show "-2" ++ "*" ++ "Z[0]" = "-2*Z[0]" by decide, show "-" ++ "X[2]" = "-X[2]" by decide, e1, e2]
    decide
  · simp [exprOp, termOp, wordOp]
    module

/-! ## C81 -/

/-- C81. X, Y and Z operators that compare equal have equal hashes. -/
theorem C81_hash_partial (h : PLetter → ℕ → ℤ) (a b : POp) (he : pvEq (.pauli (.op a)) (.pauli (.op b)) = some (.ok true)) :
    ∃ k, pvHash h (.pauli (.op a)) = some (.ok k) ∧ pvHash h (.pauli (.op b)) = some (.ok k) := by
  refine ⟨h a.p a.n, rfl, ?_⟩
  simp only [pvEq, Pauli.eq, Option.some.injEq, Except.ok.injEq, Bool.and_eq_true, decide_eq_true_eq] at he
  simp only [pvHash, Pauli.hash, he.1, he.2]

/-- `X[3] == X[3]`. -/
example : pvEq (.pauli (.op ⟨.X, 3⟩)) (.pauli (.op ⟨.X, 3⟩)) = some (.ok true) := rfl

/-- C81 is false for the identity, for terms and for expressions: they have no hash, although `I`, `I.to_term()` and
`X[0]`, `X[0].to_term()`, `X[0].to_expr()` compare equal. -/
theorem C81_unhashable_refuted (h : PLetter → ℕ → ℤ) (p : Pauli) :
    pvHash h (.pauli .I) = some (.error .attributeError) ∧
    pvEq (.pauli p) (.term p.toTerm) = some (.ok true) ∧ pvHash h (.term p.toTerm) = some (.error .typeError) ∧
    pvEq (.pauli p) (.expr p.toExpr) = some (.ok true) ∧ pvHash h (.expr p.toExpr) = some (.error .typeError) := by
  refine ⟨rfl, ?_, rfl, ?_, rfl⟩
  · simp [pvEq, PTerm.eq]
  · rw [pvEq, (exprEq_iff _ _).2 rfl]

end

end Blueqat
