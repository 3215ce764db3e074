import Verif.PauliObj
import Verif.Props.PauliMatrix
import Verif.Props.PauliCommute
import Verif.Props.PauliIdentity

set_option linter.unusedSimpArgs false
set_option linter.unusedVariables false

/-!
# C93, C94: the object protocol of Pauli operators, terms and expressions
-/

namespace Blueqat

open Spec

/-! ## C93: `!=`, and comparison with numbers -/

/-- C93. `a != b` raises exactly where `a == b` does, the same error, and is its opposite elsewhere; for all values,
numbers included. -/
theorem C93_ne (a b : PVal) :
    (∀ r, pvNe a b = .ok r ↔ pvEqPy a b = .ok (!r)) ∧ ∀ x, pvNe a b = .error x ↔ pvEqPy a b = .error x := by
  have key : pvNe a b = (pvEqPy a b).map (!·) := by
    cases a <;> cases b <;> simp only [pvNe, pvEqPy, Except.map] <;> try rfl
    all_goals (split <;> simp_all [bind, Except.bind])
  rw [key]
  cases pvEqPy a b <;> simp [Except.map, Bool.eq_not]

/-- C93. Two expressions are `!=` exactly if they are different operators. -/
theorem C93_ne_exprs (a b : PExpr) : ∃ r, pvNe (.expr a) (.expr b) = .ok r ∧ (r = true ↔ exprOp a ≠ exprOp b) :=
  ⟨!a.eq b, rfl, by rw [Bool.not_eq_true', ← Bool.not_eq_true, exprEq_iff]⟩

/-- C93. Where C35 says what `==` tells, `!=` tells the opposite: for Pauli operators, terms and expressions in any
combination except a term with an expression and the identity with another Pauli operator, `!=` of a non-zero operator
is true exactly if the operators differ. -/
theorem C93_ne_partial (a b : PVal) (ha : kindOf a ≠ .num) (hb : kindOf b ≠ .num)
    (h1 : ¬ (kindOf a = .term ∧ kindOf b = .expr)) (h2 : ¬ (kindOf a = .expr ∧ kindOf b = .term))
    (h3 : ∀ o, ¬ (a = .pauli .I ∧ b = .pauli (.op o)) ∧ ¬ (b = .pauli .I ∧ a = .pauli (.op o))) (h0 : valOp a ≠ 0) :
    ∃ r, pvNe a b = .ok r ∧ (r = true ↔ valOp a ≠ valOp b) := by
  obtain ⟨r, hr, _, hv⟩ := C35_symmetric_partial a b ha hb h1 h2 h3
  refine ⟨!r, ((C93_ne a b).1 _).2 ?_, ?_⟩
  · rw [Bool.not_not]
    cases a <;> cases b <;> simp_all [pvEqPy, kindOf]
  · rw [Bool.not_eq_true', ← Bool.not_eq_true, hv h0]

/-- C93 is false for numbers: a Pauli operator, term or expression is never equal to a number, whichever side it
stands on, though it may be that multiple of the identity, and though `+`, `-` and `*` treat the two alike. -/
theorem C93_number_refuted :
    (∀ (x : PyNum) (v : PVal), kindOf v ≠ .num →
      pvEqPy (.num x) v = .ok false ∧ pvEqPy v (.num x) = .ok false ∧
      pvNe (.num x) v = .ok true ∧ pvNe v (.num x) = .ok true) ∧
    (∀ x : PyNum, valOp (.num x) = exprOp (.fromNumber x.val)) ∧
    valOp (.num (.real 1)) = valOp (.pauli .I) := by
  refine ⟨?_, ?_, ?_⟩
  · intro x v hv
    cases v <;> simp [kindOf] at hv <;> exact ⟨rfl, rfl, rfl, rfl⟩
  · intro x
    rw [PExpr.fromNumber]
    split <;> rename_i h <;> simp_all [valOp, exprOp, termOp, wordOp_nil, PExpr.fromTerm, PExpr.zero]
  · simp [valOp, PyNum.val, pauliOp]

/-- `X[0] != I` raises AttributeError, as `==` does. -/
example (o : POp) : pvNe (.pauli (.op o)) (.pauli .I) = .error .attributeError := rfl
example : pvNe (.pauli (.op ⟨.X, 0⟩)) (.pauli (.op ⟨.X, 1⟩)) = .ok true := rfl

/-! ## C94: conversions, methods, iteration, copying -/

/-- C94. `to_term` accepts exactly the Pauli operators and terms, `to_expr` everything but numbers; both keep the
operator, and anything else is AttributeError. -/
theorem C94_conversion (v : PVal) :
    (∀ t, pvToTerm v = .ok t → termOp t = valOp v) ∧
    (∀ e, pvToExpr v = .ok e → exprOp e = valOp v) ∧
    ((∃ t, pvToTerm v = .ok t) ↔ kindOf v = .pauli ∨ kindOf v = .term) ∧
    ((∃ e, pvToExpr v = .ok e) ↔ kindOf v ≠ .num) ∧
    (∀ x, pvToTerm v = .error x → x = .attributeError) ∧ (∀ x, pvToExpr v = .error x → x = .attributeError) := by
  cases v <;> simp [pvToTerm, pvToExpr, kindOf, valOp, Pauli.toExpr, fromTerm_op, toTerm_op]

/-- C94. `to_term` of a term is the term, `to_expr` of an expression the expression; and a Pauli operator becomes the
same expression directly and by way of its term. -/
theorem C94_idempotent (p : Pauli) (t : PTerm) (e : PExpr) :
    pvToTerm (.term t) = .ok t ∧ pvToExpr (.expr e) = .ok e ∧
    ∃ s, pvToTerm (.pauli p) = .ok s ∧ pvToExpr (.pauli p) = pvToExpr (.term s) := by
  exact ⟨rfl, rfl, p.toTerm, rfl, rfl⟩

/-- C94. `commutator` accepts any two of Pauli operators, terms and expressions, and is `ab - ba`; a number on either
side is AttributeError. As a method it is the same function, but bare Pauli operators do not have it. -/
theorem C94_commutator (a b : PVal) :
    (∀ e, pvCommutator a b = .ok e → exprOp e = valOp a * valOp b - valOp b * valOp a) ∧
    ((∃ e, pvCommutator a b = .ok e) ↔ kindOf a ≠ .num ∧ kindOf b ≠ .num) ∧
    (∀ x, pvCommutator a b = .error x → x = .attributeError) ∧
    (kindOf a = .term ∨ kindOf a = .expr → pvCommutatorMethod a b = pvCommutator a b) ∧
    (kindOf a = .pauli → pvCommutatorMethod a b = .error .attributeError) := by
  refine ⟨?_, ?_, ?_, ?_, ?_⟩
  · intro e h
    cases ha : pvToExpr a with
    | error x => simp [pvCommutator, ha, bind, Except.bind] at h
    | ok ea =>
      cases hb : pvToExpr b with
      | error x => simp [pvCommutator, ha, hb, bind, Except.bind] at h
      | ok eb =>
        simp only [pvCommutator, ha, hb, bind, Except.bind, Except.ok.injEq] at h
        rw [← h, C38_commutator, (C94_conversion a).2.1 _ ha, (C94_conversion b).2.1 _ hb]
  all_goals cases a <;> cases b <;>
    simp [pvCommutator, pvToExpr, kindOf, bind, Except.bind, pvCommutatorMethod]

/-- C94. `[b, a] = -[a, b]`, and the answer to "do they commute" does not depend on the order. -/
theorem C94_antisymmetric (a b : PVal) (ha : kindOf a ≠ .num) (hb : kindOf b ≠ .num) :
    (∃ e f, pvCommutator a b = .ok e ∧ pvCommutator b a = .ok f ∧ exprOp f = -exprOp e) := by
  obtain ⟨e, he⟩ := (C94_commutator a b).2.1.2 ⟨ha, hb⟩
  obtain ⟨f, hf⟩ := (C94_commutator b a).2.1.2 ⟨hb, ha⟩
  refine ⟨e, f, he, hf, ?_⟩
  rw [(C94_commutator a b).1 _ he, (C94_commutator b a).1 _ hf, neg_sub]

/-- C94. `is_commutable` answers True for every two values that commute, and for Pauli operators and terms whose
coefficients are not too small it is True only of those; as a method it is the same with the default `eps`. -/
theorem C94_commutable (a b : PVal) :
    (∀ eps : ℝ, 0 < eps → kindOf a ≠ .num → kindOf b ≠ .num → valOp a * valOp b = valOp b * valOp a →
      pvIsCommutable a b eps = .ok true) ∧
    (∀ s t, pvToTerm a = .ok s → pvToTerm b = .ok t → 5e-5 ≤ ‖s.coeff * t.coeff‖ →
      ∃ r, pvIsCommutable a b 1e-8 = .ok r ∧ (r = true ↔ valOp a * valOp b = valOp b * valOp a)) ∧
    (kindOf a = .num ∨ kindOf b = .num → ∀ eps, pvIsCommutable a b eps = .error .attributeError) ∧
    (kindOf a = .term ∨ kindOf a = .expr → pvIsCommutableWith a b = pvIsCommutable a b 1e-8) ∧
    (kindOf a = .pauli → pvIsCommutableWith a b = .error .attributeError) := by
  refine ⟨?_, ?_, ?_, ?_, ?_⟩
  · intro eps he ha hb h
    obtain ⟨ea, hea⟩ := (C94_conversion a).2.2.2.1.2 ha
    obtain ⟨eb, heb⟩ := (C94_conversion b).2.2.2.1.2 hb
    simp only [pvIsCommutable, hea, heb, bind, Except.bind, Except.ok.injEq]
    apply C38_commuting _ _ _ he
    rw [(C94_conversion a).2.1 _ hea, (C94_conversion b).2.1 _ heb, h]
  · intro s t hs ht hc
    have e1 : pvToExpr a = .ok (.fromTerm s) := by cases a <;> simp_all [pvToTerm, pvToExpr, Pauli.toExpr]
    have e2 : pvToExpr b = .ok (.fromTerm t) := by cases b <;> simp_all [pvToTerm, pvToExpr, Pauli.toExpr]
    refine ⟨isCommutable (.fromTerm s) (.fromTerm t) 1e-8, by simp only [pvIsCommutable, e1, e2, bind, Except.bind], ?_⟩
    rw [C38_terms s t hc, (C94_conversion a).1 _ hs, (C94_conversion b).1 _ ht]
  · intro h eps
    cases a <;> cases b <;> simp_all [pvIsCommutable, pvToExpr, kindOf, bind, Except.bind]
  · intro h
    have : (0.00000001 : ℝ) = 1e-8 := by norm_num
    cases a <;> simp_all [pvIsCommutableWith, kindOf]
  · intro h
    cases a <;> simp_all [pvIsCommutableWith, kindOf]

/-! ### Iteration -/

theorem foldl_max_spec (l : List ℤ) (x : ℤ) : (∀ y ∈ x :: l, y ≤ l.foldl max x) ∧ l.foldl max x ∈ x :: l := by
  induction l generalizing x with
  | nil => simp
  | cons a l ih =>
    obtain ⟨h1, h2⟩ := ih (max x a)
    rw [List.foldl_cons]
    constructor
    · intro y hy
      have hm := h1 _ (List.mem_cons_self)
      simp only [List.mem_cons] at hy
      rcases hy with rfl | rfl | hy
      · exact le_trans (le_max_left _ _) hm
      · exact le_trans (le_max_right _ _) hm
      · exact h1 _ (List.mem_cons_of_mem _ hy)
    · rcases List.mem_cons.1 h2 with h | h
      · rw [h]; rcases max_choice x a with h' | h' <;> simp [h']
      · simp [h]

/-- C94. `Term.max_n()` is -1 without operators, otherwise the largest index, which occurs and which no index exceeds. -/
theorem C94_term_max_n (t : PTerm) :
    (t.ops = [] ∧ t.maxN = -1) ∨ ((∀ o ∈ t.ops, (o.n : ℤ) ≤ t.maxN) ∧ ∃ o ∈ t.ops, (o.n : ℤ) = t.maxN) := by
  obtain ⟨ops, c⟩ := t
  cases ops with
  | nil => exact .inl ⟨rfl, rfl⟩
  | cons o os =>
    right
    have h := foldl_max_spec (os.map fun o : POp => (o.n : ℤ)) o.n
    have e : PTerm.maxN ⟨o :: os, c⟩ = (os.map fun o : POp => (o.n : ℤ)).foldl max (o.n : ℤ) := by
      simp only [PTerm.maxN, PTerm.nIter, pyMaxInt, List.map_cons, List.map_map, Function.comp_def]
    rw [e]
    constructor
    · intro p hp
      apply h.1
      rcases List.mem_cons.1 hp with rfl | hp
      · simp
      · exact List.mem_cons_of_mem _ (List.mem_map_of_mem hp)
    · rcases List.mem_cons.1 h.2 with h2 | h2
      · exact ⟨o, by simp, h2.symm⟩
      · obtain ⟨p, hp, h3⟩ := List.mem_map.1 h2
        exact ⟨p, List.mem_cons_of_mem _ hp, h3⟩

/-- C94. `Expr.max_n()` is -1 if no term has an operator, otherwise the largest index in any term. -/
theorem C94_expr_max_n (e : PExpr) :
    ((∀ t ∈ e.terms, t.ops = []) ∧ e.maxN = -1) ∨
    ((∀ t ∈ e.terms, ∀ o ∈ t.ops, (o.n : ℤ) ≤ e.maxN) ∧ ∃ t ∈ e.terms, ∃ o ∈ t.ops, (o.n : ℤ) = e.maxN) := by
  have hm : ∀ t, t ∈ e.terms.filter (fun t => decide (t.ops ≠ [])) ↔ t ∈ e.terms ∧ t.ops ≠ [] := by simp
  unfold PExpr.maxN
  generalize e.terms.filter (fun t => decide (t.ops ≠ [])) = l at hm
  cases l with
  | nil =>
    left
    refine ⟨fun t ht => ?_, rfl⟩
    by_contra hne
    exact absurd ((hm t).2 ⟨ht, hne⟩) (by simp)
  | cons u us =>
    right
    have h := foldl_max_spec (us.map PTerm.maxN) u.maxN
    simp only [List.map_cons, pyMaxInt]
    rw [← List.map_cons] at h
    constructor
    · intro t ht o ho
      have hne : t.ops ≠ [] := List.ne_nil_of_mem ho
      have h1 := h.1 _ (List.mem_map_of_mem ((hm t).2 ⟨ht, hne⟩))
      rcases C94_term_max_n t with h2 | h2
      · exact absurd h2.1 hne
      · exact le_trans (h2.1 o ho) h1
    · obtain ⟨t, ht, h1⟩ := List.mem_map.1 h.2
      have h2 := (hm t).1 ht
      rcases C94_term_max_n t with h3 | ⟨_, o, ho, h3⟩
      · exact absurd h3.1 h2.2
      · exact ⟨t, h2.1, o, ho, by rw [h3, h1]⟩

/-- C94. `n_qubits` is `max_n() + 1`. -/
theorem C94_n_qubits (t : PTerm) (e : PExpr) : (t.nQubits : ℤ) = t.maxN + 1 ∧ (e.nQubits : ℤ) = e.maxN + 1 := by
  constructor
  · have hb := (term_nQubits_le t _).1 le_rfl
    have hl := (term_nQubits_le t (t.nQubits - 1)).2
    rcases C94_term_max_n t with ⟨h1, h2⟩ | ⟨h1, o, ho, h2⟩
    · rw [h2]; simp [PTerm.nQubits, h1]
    · have := hb o ho
      rw [← h2]
      by_contra hne
      have : t.nQubits ≤ t.nQubits - 1 := hl fun p hp => by
        have h3 := h1 p hp
        have h4 := hb p hp
        rw [← h2] at h3
        omega
      omega
  · have hb := (expr_nQubits_le e _).1 le_rfl
    have hl := (expr_nQubits_le e (e.nQubits - 1)).2
    rcases C94_expr_max_n e with ⟨h1, h2⟩ | ⟨h1, u, hu, o, ho, h2⟩
    · rw [h2]
      have : e.nQubits ≤ 0 := (expr_nQubits_le e 0).2 fun t ht o ho => by rw [h1 t ht] at ho; simp at ho
      omega
    · have := hb u hu o ho
      rw [← h2]
      by_contra hne
      have : e.nQubits ≤ e.nQubits - 1 := hl fun t ht p hp => by
        have h3 := h1 t ht p hp
        have h4 := hb t ht p hp
        rw [← h2] at h3
        omega
      omega

/-- C94. `iter(expr)` yields terms that add up to the expression, `coeffs()` their coefficients in the same order, and
`n_iter()` the index of each operator of a term, in order and with repetitions. -/
theorem C94_iteration (e : PExpr) (t : PTerm) :
    (e.iter.map termOp).sum = exprOp e ∧
    e.coeffs.length = e.iter.length ∧ (∀ i (h : i < e.coeffs.length) (h' : i < e.iter.length),
      e.coeffs[i] = e.iter[i].coeff) ∧
    t.nIter.length = t.ops.length ∧ ∀ i (h : i < t.nIter.length) (h' : i < t.ops.length), t.nIter[i] = t.ops[i].n := by
  refine ⟨rfl, by simp [PExpr.coeffs, PExpr.iter], ?_, by simp [PTerm.nIter], ?_⟩
  · intro i h h'; simp [PExpr.coeffs, PExpr.iter]
  · intro i h h'; simp [PTerm.nIter]

/-! ### Constructors -/

/-- C94. `X(n)` and `X[n]` are the Pauli operator on qubit `n`; the `matrix` of the constructor is that of every operator
it makes. -/
theorem C94_constructors (c : PLetter) (n : ℕ) :
    ctorCall c n = ctorGetItem c n ∧ pauliOp (ctorCall c n) = matAt (letterM c) n ∧
    (ctorGetItem c n).matrix = ctorMatrix c ∧ ctorMatrix c = opRows 1 (opOp ⟨c, 0⟩) := by
  have h : (ctorGetItem c n).matrix = ctorMatrix c := by cases c <;> rfl
  exact ⟨rfl, rfl, h, by rw [← h]; exact (C36_matrix c n).1⟩

/-! ### Copying -/

/-- C94. A copy, and the result of pickling and unpickling, is the value itself: for every value. -/
theorem C94_copy (v : PVal) : pvCopy v = .ok v := by
  cases v with
  | num x => rfl
  | pauli p => cases p <;> rfl
  | term t => rfl
  | expr e => rfl

/-- Why Expr defines `__getnewargs__`: with the one of a namedtuple, which iterates, an expression cannot be
copied. -/
theorem C94_newargs_needed (e : PExpr) : pvCopyWith tupleNewArgs (.expr e) = .error .typeError := rfl

/-! ### Cases -/

/-- `[X[0], Z[0]]` of two bare Pauli operators. -/
example : ∃ e, pvCommutator (.pauli (.op ⟨.X, 0⟩)) (.pauli (.op ⟨.Z, 0⟩)) = .ok e ∧ exprOp e ≠ 0 := by
  obtain ⟨e, he⟩ := (C94_commutator (.pauli (.op ⟨.X, 0⟩)) (.pauli (.op ⟨.Z, 0⟩))).2.1.2 (by simp [kindOf])
  refine ⟨e, he, ?_⟩
  rw [(C94_commutator _ _).1 e he]
  have h1 := mulMap_op .X .Z 0
  have h2 := mulMap_op .Z .X 0
  simp only [mulMap, optOp] at h1 h2
  simp only [valOp, pauliOp, h1, h2]
  rw [show ∀ A : Operator, -Complex.I • A - Complex.I • A = (-2 * Complex.I) • A from fun A => by module]
  intro h0
  have hne : opOp ⟨.Y, 0⟩ ≠ 0 := by rw [← wordOp_singleton]; exact wordOp_ne _
  rcases smul_eq_zero.1 h0 with h | h
  · have := congrArg Complex.im h; norm_num at this
  · exact hne h

/-- Two terms to which the second part of `C94_commutable` applies. -/
example : ∃ s t, pvToTerm (.pauli (.op ⟨.X, 0⟩)) = .ok s ∧ pvToTerm (.term ⟨[⟨.Z, 1⟩], 2⟩) = .ok t ∧
    5e-5 ≤ ‖s.coeff * t.coeff‖ := by
  refine ⟨_, _, rfl, rfl, ?_⟩
  rw [toTerm_coeff]
  norm_num

example : PTerm.maxN ⟨[⟨.X, 2⟩, ⟨.Z, 5⟩, ⟨.Y, 5⟩], 3⟩ = 5 := by
  simp [PTerm.maxN, PTerm.nIter, pyMaxInt]

example : PExpr.maxN ⟨[⟨[], 1⟩, ⟨[⟨.X, 2⟩], 3⟩]⟩ = 2 := by
  simp [PExpr.maxN, PTerm.maxN, PTerm.nIter, pyMaxInt]

end Blueqat
