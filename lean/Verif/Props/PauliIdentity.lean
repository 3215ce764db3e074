import Verif.Spec.PauliSupport
import Verif.Props.Pauli
import Verif.PauliMatrixRefine

/-!
# C73: `is_identity` and `n_qubits` of Pauli objects, terms and expressions
-/

set_option linter.unusedSimpArgs false
set_option linter.unusedVariables false

namespace Blueqat

open Spec

/-! ## Lemmas -/

theorem dictOp_terms (l : List PTerm) (f : PTerm → ℂ) :
    dictOp (l.map fun t => (t.ops, f t)) = (l.map fun t => f t • wordOp t.ops).sum := by
  simp [dictOp, List.map_map, Function.comp_def]

/-- An operator commuting with a letter has only words commuting with the letter. -/
theorem commute_words {e : PExpr} (hn : ∀ w ∈ e.words, NormalWord w) (hd : e.words.Nodup) {o : POp}
    (h : Commute (opOp o) (exprOp e)) : ∀ t ∈ e.terms, t.coeff ≠ 0 → signW t.ops o = 1 := by
  have h1 : ∀ l : List PTerm, opOp o * (l.map termOp).sum =
      (l.map fun t => (t.coeff * signW t.ops o) • wordOp t.ops).sum * opOp o := by
    intro l
    induction l with
    | nil => simp
    | cons t l ih =>
      rw [List.map_cons, List.sum_cons, mul_add, ih, List.map_cons, List.sum_cons, add_mul, termOp, mul_smul_comm,
        opOp_word, smul_smul, smul_mul_assoc]
  have h2 : (e.terms.map fun t => (t.coeff * signW t.ops o) • wordOp t.ops).sum =
      (e.terms.map fun t => t.coeff • wordOp t.ops).sum := by
    have h3 := h.eq
    rw [exprOp, h1] at h3
    have h4 := congrArg (· * opOp o) h3
    simp only [mul_assoc, opOp_sq, mul_one] at h4
    exact h4
  have hk : ∀ f : PTerm → ℂ, (e.terms.map fun t => (t.ops, f t)).map Prod.fst = e.words := by
    intro f; rw [List.map_map]; rfl
  have hwf : ∀ f : PTerm → ℂ, PyDict.WF (e.terms.map fun t => (t.ops, f t)) := by
    intro f; rw [PyDict.WF, hk]; exact hd
  have hin : ∀ f : PTerm → ℂ, DictIn NormalWord (e.terms.map fun t => (t.ops, f t)) := by
    intro f w hw; rw [hk] at hw; exact hn w hw
  rw [← dictOp_terms, ← dictOp_terms] at h2
  intro t ht hc
  have h3 := coef_ext (hwf _) (hwf _) (hin _) (hin _) h2 t.ops
  have hg : ∀ f : PTerm → ℂ, coef (e.terms.map fun t => (t.ops, f t)) t.ops = f t := by
    intro f
    rw [coef, PyDict.get_of_mem (hwf f) (List.mem_map.2 ⟨t, ht, rfl⟩)]; rfl
  rw [hg, hg] at h3
  exact mul_left_cancel₀ hc (h3.trans (mul_one _).symm)

theorem commute_word {M : M2} {q : ℕ} {w : List POp} (h : ∀ o ∈ w, o.n ≠ q) : Commute (matAt M q) (wordOp w) := by
  induction w with
  | nil => exact Commute.one_right _
  | cons o w ih =>
    rw [wordOp_cons]
    exact (matAt_comm (fun hh => h o (by simp) hh.symm) _ _).mul_right (ih fun o ho => h o (by simp [ho]))

theorem within_expr {e : PExpr} {n : ℕ} (h : ∀ t ∈ e.terms, ∀ o ∈ t.ops, o.n < n) : ActsWithin (exprOp e) n := by
  intro M q hq
  obtain ⟨ts⟩ := e
  rw [exprOp]
  simp only at h ⊢
  induction ts with
  | nil => exact Commute.zero_right _
  | cons t ts ih =>
    rw [List.map_cons, List.sum_cons]
    refine Commute.add_right ?_ (ih fun t ht => h t (by simp [ht]))
    exact (commute_word fun o ho => by have := h t (by simp) o ho; omega).smul_right _

theorem within_words {e : PExpr} (hn : ∀ w ∈ e.words, NormalWord w) (hd : e.words.Nodup)
    (hc : ∀ t ∈ e.terms, t.coeff ≠ 0) {n : ℕ} (h : ActsWithin (exprOp e) n) : ∀ t ∈ e.terms, ∀ o ∈ t.ops, o.n < n := by
  intro t ht o ho
  by_contra hlt
  obtain ⟨p, q⟩ := o
  have hs : ∀ p', signW t.ops ⟨p', q⟩ = 1 := fun p' =>
    commute_words hn hd (o := ⟨p', q⟩) (h _ q (by simpa using hlt)) t ht (hc t ht)
  have hx := hs .X
  have hz := hs .Z
  have hw := hn t.ops (List.mem_map_of_mem ht)
  rw [signW_present hw ho] at hx hz
  have : (-1 : ℂ) ≠ 1 := by norm_num
  cases p <;> simp [this] at hx hz

theorem foldl_max_le_iff {α : Type} (f : α → ℕ) (l : List α) (n m : ℕ) :
    l.foldl (fun m x => max m (f x)) m ≤ n ↔ m ≤ n ∧ ∀ x ∈ l, f x ≤ n := by
  induction l generalizing m with
  | nil => simp
  | cons x l ih => rw [List.foldl_cons, ih, max_le_iff, List.forall_mem_cons, and_assoc]

theorem term_nQubits_le (t : PTerm) (n : ℕ) : t.nQubits ≤ n ↔ ∀ o ∈ t.ops, o.n < n := by
  rw [PTerm.nQubits, foldl_max_le_iff]; simp [Nat.succ_le_iff]

theorem expr_nQubits_le (e : PExpr) (n : ℕ) : e.nQubits ≤ n ↔ ∀ t ∈ e.terms, ∀ o ∈ t.ops, o.n < n := by
  rw [PExpr.nQubits, foldl_max_le_iff]
  simp only [Nat.zero_le, true_and, List.mem_filter, term_nQubits_le, decide_eq_true_eq]
  constructor
  · intro h t ht o ho
    exact h t ⟨ht, by rintro h0; rw [h0] at ho; simp at ho⟩ o ho
  · intro h t ht; exact h t ht.1

/-! ## `n_qubits` -/

/-- C73. After `simplify()`, `n_qubits` of an expression is the least number of qubits the operator acts within: the
operator acts only on the qubits below `n` iff `n_qubits` is at most `n`. -/
theorem C73_n_qubits (e : PExpr) (n : ℕ) : e.simplify.nQubits ≤ n ↔ ActsWithin (exprOp e) n := by
  rw [expr_nQubits_le]
  constructor
  · intro h; rw [← exprSimplify_op]; exact within_expr h
  · intro h
    rw [← exprSimplify_op] at h
    exact within_words (exprSimplify_normal e) (exprSimplify_nodup e) (exprSimplify_coeff e) h

/-- C73. Without `simplify()`, `n_qubits` is an upper bound, and it is one more than the largest qubit written down, or
0 if none is. -/
theorem C73_n_qubits_bound (e : PExpr) :
    ActsWithin (exprOp e) e.nQubits ∧ (∀ t ∈ e.terms, ∀ o ∈ t.ops, o.n < e.nQubits) ∧
    (e.nQubits = 0 ∨ ∃ t ∈ e.terms, ∃ o ∈ t.ops, o.n + 1 = e.nQubits) := by
  refine ⟨within_expr ((expr_nQubits_le e _).1 le_rfl), (expr_nQubits_le e _).1 le_rfl, ?_⟩
  by_contra hc
  push Not at hc
  have := (expr_nQubits_le e (e.nQubits - 1)).2 fun t ht o ho => by
    have h1 := (expr_nQubits_le e _).1 le_rfl t ht o ho
    have h2 := hc.2 t ht o ho
    omega
  omega

/-- C73. The same for a simplified term that is not zero. -/
theorem C73_term_n_qubits (t : PTerm) (h : termOp t ≠ 0) (n : ℕ) :
    t.simplify.nQubits ≤ n ↔ ActsWithin (termOp t) n := by
  have he : exprOp ⟨[t.simplify]⟩ = termOp t := by simp [exprOp, simplify_op]
  have hc : t.simplify.coeff ≠ 0 := by
    rintro h0; exact h (by rw [← simplify_op, termOp, h0, zero_smul])
  rw [term_nQubits_le]
  constructor
  · intro hh; rw [← he]; exact within_expr (by simpa using hh)
  · intro hh
    rw [← he] at hh
    have := within_words (e := ⟨[t.simplify]⟩) (by simpa [PExpr.words] using simplify_normal t)
      (by simp [PExpr.words]) (by simpa using hc) hh
    simpa using this

/-- C73. `n_qubits` of a Pauli object. -/
theorem C73_pauli_n_qubits (p : Pauli) (n : ℕ) : p.nQubits ≤ n ↔ ActsWithin (pauliOp p) n := by
  cases p with
  | I => simp only [Pauli.nQubits, Nat.zero_le, true_iff]; intro M q _; exact Commute.one_right _
  | op o =>
    have h1 : termOp ⟨[o], 1⟩ = opOp o := by simp [termOp, wordOp_singleton]
    have h2 := C73_term_n_qubits ⟨[o], 1⟩ (by
      rw [termOp, one_smul]; exact wordOp_ne _) n
    rw [simplify_of_normal _ (by simp [NormalWord]), h1] at h2
    rw [pauliOp, ← h2]
    simp [PTerm.nQubits, Pauli.nQubits]

/-! ## `is_identity` -/

theorem one_expr_op : exprOp ⟨[⟨[], 1⟩]⟩ = 1 := by simp [exprOp, termOp, wordOp_nil]

theorem one_expr_simplify : (⟨[⟨[], 1⟩]⟩ : PExpr).simplify = ⟨[⟨[], 1⟩]⟩ := by
  simp [PExpr.simplify, PExpr.simplifyDict, PExpr.fromTermsIter, simplify_of_normal ⟨[], 1⟩ (by simp [NormalWord]),
    dictAdd, PyDict.set, PyDict.get, sortByRepr]

/-- C73. `is_identity` of a Pauli object. -/
theorem C73_pauli (p : Pauli) : p.isIdentity = true ↔ pauliOp p = 1 := by
  cases p with
  | I => simp [Pauli.isIdentity, pauliOp]
  | op o =>
    simp only [Pauli.isIdentity, Bool.false_eq_true, false_iff, pauliOp]
    intro h
    have := (C73_pauli_n_qubits (.op o) 0).2 (by
      rw [pauliOp, h]; intro M q _; exact Commute.one_right _)
    simp [Pauli.nQubits] at this

/-- C73. For every expression that is not zero: after `simplify()`, `is_identity` is true exactly of the identity. -/
theorem C73_expr_partial (e : PExpr) (h : exprOp e ≠ 0) : e.simplify.isIdentity = true ↔ exprOp e = 1 := by
  constructor
  · intro hi
    rw [← exprSimplify_op] at h ⊢
    generalize e.simplify = s at *
    obtain ⟨ts⟩ := s
    rcases ts with _ | ⟨⟨ops, c⟩, _ | ⟨u, ts⟩⟩
    · simp [exprOp] at h
    · simp [PExpr.isIdentity] at hi
      rw [hi.1, hi.2, one_expr_op]
    · simp [PExpr.isIdentity] at hi
  · intro h1
    rw [simplify_canonical (h1.trans one_expr_op.symm), one_expr_simplify]
    simp [PExpr.isIdentity]

/-- C73. A term that is not zero: after `simplify()`, `is_identity` is true exactly of the multiples of the identity. -/
theorem C73_term_partial (t : PTerm) (h : termOp t ≠ 0) :
    t.simplify.isIdentity = true ↔ ∃ z : ℂ, termOp t = z • (1 : Operator) := by
  constructor
  · intro hi
    simp only [PTerm.isIdentity, decide_eq_true_eq] at hi
    exact ⟨t.simplify.coeff, by rw [← simplify_op, termOp, hi, wordOp_nil]⟩
  · rintro ⟨z, hz⟩
    have := (C73_term_n_qubits t h 0).2 (by
      rw [hz]; intro M q _; exact (Commute.one_right _).smul_right _)
    rw [term_nQubits_le] at this
    simp only [PTerm.isIdentity, decide_eq_true_eq]
    exact List.eq_nil_iff_forall_not_mem.2 fun o ho => by have := this o ho; omega

/-- C73 is false of the code in three ways. The zero expression is reported to be the identity. So are all multiples of
the identity given as terms, zero included. And operators equal to the identity are not recognised before
`simplify()`. -/
theorem C73_refuted :
    (∃ e : PExpr, e.isIdentity = true ∧ e.simplify.isIdentity = true ∧ exprOp e = 0 ∧ exprOp e ≠ 1) ∧
    (∀ z : ℂ, z ≠ 1 → (⟨[], z⟩ : PTerm).isIdentity = true ∧ termOp ⟨[], z⟩ ≠ 1) ∧
    (∀ o o' : POp, o.n ≠ o'.n → termOp ⟨[o, o', o, o'], 1⟩ = 1 ∧ (⟨[o, o', o, o'], 1⟩ : PTerm).isIdentity = false) := by
  refine ⟨⟨⟨[]⟩, by simp [PExpr.isIdentity], ?_, by simp [exprOp], by simpa [exprOp] using operator_one_ne.symm⟩, ?_, ?_⟩
  · simp [PExpr.simplify, PExpr.simplifyDict, PExpr.fromTermsIter, PExpr.isIdentity, sortByRepr]
  · intro z hz
    refine ⟨by simp [PTerm.isIdentity], ?_⟩
    rw [termOp, wordOp_nil]
    intro h
    have : (z - 1) • (1 : Operator) = 0 := by
      simp only at h
      rw [sub_smul z (1 : ℂ) (1 : Operator), h, one_smul, sub_self]
    rcases smul_eq_zero.1 this with h' | h'
    · exact hz (sub_eq_zero.1 h')
    · exact operator_one_ne h'
  · intro o o' hne
    refine ⟨?_, by simp [PTerm.isIdentity]⟩
    have := (opOp_comm hne).eq
    rw [termOp, one_smul, wordOp_cons, wordOp_cons, wordOp_cons, wordOp_singleton, ← mul_assoc (opOp o'), ← this,
      mul_assoc, opOp_sq, mul_one, opOp_sq]

/-- The hypotheses are met by `X[0] * X[0]` plus a `Z[2]` that cancels: `n_qubits` is 3 before and 0 after
`simplify()`. -/
example : ∃ e : PExpr, exprOp e = 1 ∧ e.nQubits = 3 ∧ e.isIdentity = false ∧ e.simplify.nQubits = 0 ∧
    e.simplify.isIdentity = true := by
  have h1 : exprOp ⟨[⟨[⟨.X, 0⟩, ⟨.X, 0⟩], 1⟩, ⟨[⟨.Z, 2⟩], 1⟩, ⟨[⟨.Z, 2⟩], -1⟩]⟩ = 1 := by
    simp [exprOp, termOp, wordOp_cons, wordOp_nil, opOp_sq]
    module
  refine ⟨_, h1, by simp [PExpr.nQubits, PTerm.nQubits], by simp [PExpr.isIdentity], ?_,
    (C73_expr_partial _ (by rw [h1]; exact operator_one_ne)).2 h1⟩
  exact Nat.le_zero.1 ((C73_n_qubits _ 0).2 (by rw [h1]; intro M q _; exact Commute.one_right _))

end Blueqat
