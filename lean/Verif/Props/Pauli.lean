import Verif.PauliFormula
import Verif.Spec.PauliChars
import Mathlib.Tactic.Linarith
import Mathlib.Tactic.FieldSimp

/-!
# Properties C31-C35, C38, C41: Pauli terms and expressions
-/

set_option linter.unusedSimpArgs false
set_option linter.unusedVariables false

namespace Blueqat

open Spec

/-! ## C31 -/

/-- C31. A product formula, whatever its nesting, evaluates to a value that denotes the product of the operators; it
is a number, a Pauli operator or a term. -/
theorem C31_products (t : Formula) (ht : t.IsProduct) : ∀ v, t.py = .ok v →
    valOp v = t.op ∧ kindOf v ≠ .expr := by
  induction t with
  | num x => intro v h; cases h; exact ⟨rfl, by simp [kindOf]⟩
  | pauli p => intro v h; cases h; exact ⟨rfl, by simp [kindOf]⟩
  | neg a ih =>
    intro v h
    obtain ⟨x, hx, h⟩ := bind_ok h; cases h
    obtain ⟨h1, h2⟩ := ih ht x hx
    refine ⟨by rw [pvNeg_op, h1]; rfl, ?_⟩
    rw [kind_pvNeg]; split_ifs <;> simp_all
  | add a b _ _ => exact absurd ht id
  | sub a b _ _ => exact absurd ht id
  | mul a b iha ihb =>
    intro v h
    obtain ⟨x, hx, h⟩ := bind_ok h; obtain ⟨y, hy, h⟩ := bind_ok h; cases h
    obtain ⟨h1, h2⟩ := iha ht.1 x hx
    obtain ⟨h3, h4⟩ := ihb ht.2 y hy
    refine ⟨by rw [pvMul_op, h1, h3]; rfl, ?_⟩
    rw [kind_pvMul]; split_ifs <;> simp_all
  | div a x ih =>
    intro v h
    obtain ⟨y, hy, h⟩ := bind_ok h
    obtain ⟨h1, h2⟩ := ih ht y hy
    refine ⟨by rw [pvDiv_op h, h1]; rfl, ?_⟩
    rw [kind_pvDiv h]; split_ifs <;> simp_all
  | pow a n ih =>
    intro v h
    obtain ⟨y, hy, h⟩ := bind_ok h
    obtain ⟨h1, h2⟩ := ih ht y hy
    exact ⟨by rw [pvPow_op h, h1]; rfl, by rw [kind_pvPow h]; exact h2⟩

/-! ## C33 -/

/-- C33 (partial). The value Python computes for an arithmetic formula denotes the operator of the formula, if no
term is raised to a power of 2 or more, or no expression is multiplied by a term. Missing: the other formulas, for
which it is false, see `C33_duplicates_refuted`. -/
theorem C33_arithmetic_partial (t : Formula) (ht : t.NoTermPower ∨ t.NoMixedProduct) (v : PVal)
    (h : t.py = .ok v) : valOp v = t.op := by
  rcases ht with ht | ht
  · suffices ∀ v, t.py = .ok v → valOp v = t.op ∧ v.Good from (this v h).1
    clear h v
    induction t with
    | num x => intro v h; cases h; exact ⟨rfl, trivial⟩
    | pauli p => intro v h; cases h; exact ⟨rfl, trivial⟩
    | neg a ih =>
      intro v h
      obtain ⟨x, hx, h⟩ := bind_ok h; cases h
      obtain ⟨h1, h2⟩ := ih ht x hx
      exact ⟨by rw [pvNeg_op, h1]; rfl, good_neg h2⟩
    | add a b iha ihb =>
      intro v h
      obtain ⟨x, hx, h⟩ := bind_ok h; obtain ⟨y, hy, h⟩ := bind_ok h; cases h
      obtain ⟨h1, h2⟩ := iha ht.1 x hx
      obtain ⟨h3, h4⟩ := ihb ht.2 y hy
      exact ⟨by rw [pvAdd_op _ _ (good_toExpr h2).1, h1, h3]; rfl, good_pvAdd h2 h4⟩
    | sub a b iha ihb =>
      intro v h
      obtain ⟨x, hx, h⟩ := bind_ok h; obtain ⟨y, hy, h⟩ := bind_ok h; cases h
      obtain ⟨h1, h2⟩ := iha ht.1 x hx
      obtain ⟨h3, h4⟩ := ihb ht.2 y hy
      exact ⟨by rw [pvSub_op _ _ (good_toExpr h2).1, h1, h3]; rfl, good_pvSub h2 h4⟩
    | mul a b iha ihb =>
      intro v h
      obtain ⟨x, hx, h⟩ := bind_ok h; obtain ⟨y, hy, h⟩ := bind_ok h; cases h
      obtain ⟨h1, h2⟩ := iha ht.1 x hx
      obtain ⟨h3, h4⟩ := ihb ht.2 y hy
      exact ⟨by rw [pvMul_op, h1, h3]; rfl, pvMul_good h2 h4⟩
    | div a x ih =>
      intro v h
      obtain ⟨y, hy, h⟩ := bind_ok h
      obtain ⟨h1, h2⟩ := ih ht y hy
      exact ⟨by rw [pvDiv_op h, h1]; rfl, good_pvDiv h h2⟩
    | pow a n ih =>
      intro v h
      obtain ⟨y, hy, h⟩ := bind_ok h
      obtain ⟨h1, h2⟩ := ih ht.1 y hy
      exact ⟨by rw [pvPow_op h, h1]; rfl, good_pvPow h h2 (fun hk => ht.2 ((kind_py a y hy).symm.trans hk))⟩
  · suffices ∀ v, t.py = .ok v → valOp v = t.op ∧ v.Distinct from (this v h).1
    clear h v
    induction t with
    | num x => intro v h; cases h; exact ⟨rfl, trivial⟩
    | pauli p => intro v h; cases h; exact ⟨rfl, trivial⟩
    | neg a ih =>
      intro v h
      obtain ⟨x, hx, h⟩ := bind_ok h; cases h
      obtain ⟨h1, h2⟩ := ih ht x hx
      exact ⟨by rw [pvNeg_op, h1]; rfl, distinct_neg h2⟩
    | add a b iha ihb =>
      intro v h
      obtain ⟨x, hx, h⟩ := bind_ok h; obtain ⟨y, hy, h⟩ := bind_ok h; cases h
      obtain ⟨h1, h2⟩ := iha ht.1 x hx
      obtain ⟨h3, h4⟩ := ihb ht.2 y hy
      exact ⟨by rw [pvAdd_op _ _ (distinct_toExpr h2), h1, h3]; rfl, distinct_add _ _⟩
    | sub a b iha ihb =>
      intro v h
      obtain ⟨x, hx, h⟩ := bind_ok h; obtain ⟨y, hy, h⟩ := bind_ok h; cases h
      obtain ⟨h1, h2⟩ := iha ht.1 x hx
      obtain ⟨h3, h4⟩ := ihb ht.2 y hy
      exact ⟨by rw [pvSub_op _ _ (distinct_toExpr h2), h1, h3]; rfl, distinct_sub _ _⟩
    | mul a b iha ihb =>
      intro v h
      obtain ⟨x, hx, h⟩ := bind_ok h; obtain ⟨y, hy, h⟩ := bind_ok h; cases h
      obtain ⟨h1, h2⟩ := iha ht.1 x hx
      obtain ⟨h3, h4⟩ := ihb ht.2.1 y hy
      refine ⟨by rw [pvMul_op, h1, h3]; rfl, distinct_pvMul h2 h4 ?_ ?_⟩
      · rw [kind_py a x hx, kind_py b y hy]; exact ht.2.2.1
      · rw [kind_py a x hx, kind_py b y hy]; exact ht.2.2.2
    | div a x ih =>
      intro v h
      obtain ⟨y, hy, h⟩ := bind_ok h
      obtain ⟨h1, h2⟩ := ih ht y hy
      exact ⟨by rw [pvDiv_op h, h1]; rfl, distinct_pvDiv h h2⟩
    | pow a n ih =>
      intro v h
      obtain ⟨y, hy, h⟩ := bind_ok h
      obtain ⟨h1, h2⟩ := ih ht y hy
      exact ⟨by rw [pvPow_op h, h1]; rfl, distinct_pvPow h h2⟩

theorem divTerms_real (r : ℝ) (hr : r ≠ 0) : ∀ ts, ∃ us, divTerms (.real r) ts = .ok us
  | [] => ⟨[], rfl⟩
  | t :: ts => by
    obtain ⟨us, hu⟩ := divTerms_real r hr ts
    exact ⟨_, by rw [divTerms, PTerm.div, if_neg hr]; simp only [hu]; rfl⟩

/-- C33. Python evaluates every formula without division by zero, without division of a term or an expression by a
complex number, and without a power of a bare Pauli operator. -/
theorem C33_defined (t : Formula) (ht : t.Accepted) : ∃ v, t.py = .ok v := by
  induction t with
  | num x => exact ⟨_, rfl⟩
  | pauli p => exact ⟨_, rfl⟩
  | neg a ih => obtain ⟨v, hv⟩ := ih ht; exact ⟨pvNeg v, by rw [Formula.py, hv]; rfl⟩
  | add a b iha ihb =>
    obtain ⟨v, hv⟩ := iha ht.1; obtain ⟨w, hw⟩ := ihb ht.2; exact ⟨pvAdd v w, by rw [Formula.py, hv, hw]; rfl⟩
  | sub a b iha ihb =>
    obtain ⟨v, hv⟩ := iha ht.1; obtain ⟨w, hw⟩ := ihb ht.2; exact ⟨pvSub v w, by rw [Formula.py, hv, hw]; rfl⟩
  | mul a b iha ihb =>
    obtain ⟨v, hv⟩ := iha ht.1; obtain ⟨w, hw⟩ := ihb ht.2; exact ⟨pvMul v w, by rw [Formula.py, hv, hw]; rfl⟩
  | div a x ih =>
    obtain ⟨v, hv⟩ := ih ht.1
    have hk := kind_py a v hv
    have hx := ht.2.1
    have hr := ht.2.2
    rw [← hk] at hr
    rw [Formula.py, hv]
    show ∃ w, pvDiv v x = .ok w
    cases v with
    | num y => exact ⟨_, by rw [pvDiv, if_neg hx]⟩
    | pauli p => exact ⟨_, by rw [pvDiv, if_neg hx]⟩
    | term t =>
      obtain ⟨r, rfl⟩ := hr (Or.inl rfl)
      have : r ≠ 0 := by rintro rfl; exact hx (by simp [PyNum.val])
      exact ⟨_, by simp only [pvDiv, PTerm.div, if_neg this]; rfl⟩
    | expr e =>
      obtain ⟨r, rfl⟩ := hr (Or.inr rfl)
      have : r ≠ 0 := by rintro rfl; exact hx (by simp [PyNum.val])
      obtain ⟨us, hu⟩ := divTerms_real r this e.terms
      exact ⟨_, by simp only [pvDiv, PExpr.div, if_pos hx, hu]; rfl⟩
  | pow a n ih =>
    obtain ⟨v, hv⟩ := ih ht.1
    have hk := kind_py a v hv
    have hp := ht.2
    rw [← hk] at hp
    rw [Formula.py, hv]
    show ∃ w, pvPow v n = .ok w
    cases v with
    | num y =>
      cases y with
      | real x => exact ⟨_, by rw [pvPow, if_neg (by omega)]⟩
      | cplx z => exact ⟨_, by rw [pvPow, if_neg (by omega)]⟩
    | pauli p => exact absurd rfl hp
    | term t =>
      by_cases h0 : (n : ℤ) = 0
      · exact ⟨_, by simp only [pvPow, PTerm.pow]; rw [if_neg (by omega), if_pos h0]⟩
      · exact ⟨_, by simp only [pvPow, PTerm.pow]; rw [if_neg (by omega), if_neg h0]⟩
    | expr e =>
      by_cases h0 : (n : ℤ) = 0
      · exact ⟨_, by simp only [pvPow, PExpr.pow]; rw [if_neg (by omega), if_pos h0]⟩
      · exact ⟨_, by simp only [pvPow, PExpr.pow]; rw [if_neg (by omega), if_neg h0]⟩

/-- C33. Powers with a negative exponent of terms and expressions are refused. -/
theorem C33_negative_power (n : ℤ) (hn : n < 0) (t : PTerm) (e : PExpr) :
    pvPow (.term t) n = .error .valueError ∧ pvPow (.expr e) n = .error .valueError := by
  constructor <;> simp [pvPow, PTerm.pow, PExpr.pow, hn]

/-- C33. Division by zero is refused for every operand. -/
theorem C33_division_by_zero (v : PVal) : pvDiv v (.real 0) = .error .zeroDivisionError := by
  cases v <;> simp [pvDiv, PTerm.div, PExpr.div, PyNum.val]

/-- C33. A power of a bare Pauli operator is refused, with any exponent. -/
theorem C33_pauli_power (p : Pauli) (n : ℤ) : pvPow (.pauli p) n = .error .typeError := rfl

/-- C33 is false in general: `((2*X[0])**2 + 1) * X[0] + Z[0]` denotes `5 X + Z`, but Python computes `X + Z`, because
`Expr.__add__` keeps only the last of several terms with the same operators (`terms_to_dict`). -/
theorem C33_duplicates_refuted : ∃ (t : Formula) (v : PVal), t.py = .ok v ∧ valOp v ≠ t.op := by
  let X0 : Formula := .pauli (.op ⟨.X, 0⟩)
  let Z0 : Formula := .pauli (.op ⟨.Z, 0⟩)
  let two : Formula := .num (.real 2)
  let one : Formula := .num (.real 1)
  refine ⟨.add (.mul (.add (.pow (.mul two X0) 2) one) X0) Z0,
    .expr ⟨[⟨[⟨.X, 0⟩], 1⟩, ⟨[⟨.Z, 0⟩], 1⟩]⟩, ?_, ?_⟩
  · simp only [Formula.py, X0, Z0, two, one, bind, Except.bind]
    simp [pvMul, pvAdd, pvPow, PVal.toExpr, PTerm.fromPauli, PyNum.val, PTerm.pow, tupleRepeat, PExpr.add,
      PExpr.fromTerm, PExpr.fromNumber, PExpr.termsToDict, PyDict.set, addStep, PyDict.get, PExpr.fromTermsDict,
      PExpr.mulTerm, Pauli.toTerm, PTerm.mul, joinOps, joinLoop, Pauli.toExpr]
  · intro h
    have hx : (⟨.X, 0⟩ : POp).n = 0 := rfl
    have h1 : valOp (.expr ⟨[⟨[⟨.X, 0⟩], 1⟩, ⟨[⟨.Z, 0⟩], 1⟩]⟩) = opOp ⟨.X, 0⟩ + opOp ⟨.Z, 0⟩ := by
      simp [valOp, exprOp, termOp, wordOp_singleton]
    have h2 : (Formula.add (.mul (.add (.pow (.mul two X0) 2) one) X0) Z0).op =
        (5 : ℂ) • opOp ⟨.X, 0⟩ + opOp ⟨.Z, 0⟩ := by
      simp only [Formula.op, X0, Z0, two, one, PyNum.val, pauliOp]
      have hs : ((((2 : ℝ) : ℂ) • (1 : Operator)) * opOp ⟨.X, 0⟩) ^ 2 = (4 : ℂ) • 1 := by
        rw [pow_two, smul_mul_assoc, one_mul, smul_mul_smul_comm, opOp_sq]; norm_num
      rw [hs, add_mul, smul_mul_assoc, one_mul, smul_mul_assoc, one_mul]
      push_cast; module
    rw [h1, h2, add_left_inj] at h
    have h3 : (1 : ℂ) • wordOp [⟨.X, 0⟩] = (5 : ℂ) • wordOp [⟨.X, 0⟩] := by
      rw [wordOp_singleton, one_smul]; exact h
    have := (term_inj (List.pairwise_singleton _ _) (List.pairwise_singleton _ _) one_ne_zero h3).2
    norm_num at this

/-- A division of a term or a non-zero expression by a complex number is refused, though a bare Pauli operator can be
divided by it. -/
theorem C33_complex_division_refuted : ∃ (z : ℂ), z ≠ 0 ∧
    (∃ v, (Formula.div (.pauli (.op ⟨.X, 0⟩)) (.cplx z)).py = .ok v) ∧
    (Formula.div (.mul (.num (.real 1)) (.pauli (.op ⟨.X, 0⟩))) (.cplx z)).py = .error .typeError := by
  refine ⟨2, two_ne_zero, C33_defined _ ⟨trivial, two_ne_zero, ?_⟩, ?_⟩
  · rintro (h | h) <;> simp [Formula.kind] at h
  · simp [Formula.py, bind, Except.bind, pvMul, pvDiv, PTerm.div]

/-- The hypotheses of C31 and C33 are met by `-(2 * X[0] * Y[1]) * X[0]` and by `(X[0] + 0.5)**2 * Z[1] - Y[0] / 2`. -/
example : ∃ t : Formula, t.IsProduct ∧ (∃ v, t.py = .ok v) ∧ t.kind = .term :=
  ⟨.mul (.neg (.mul (.mul (.num (.real 2)) (.pauli (.op ⟨.X, 0⟩))) (.pauli (.op ⟨.Y, 1⟩)))) (.pauli (.op ⟨.X, 0⟩)),
    by simp [Formula.IsProduct], C33_defined _ (by simp [Formula.Accepted]), by simp [Formula.kind]⟩

example : ∃ t : Formula, t.NoTermPower ∧ ¬ t.NoMixedProduct ∧ (∃ v, t.py = .ok v) ∧ t.kind = .expr :=
  ⟨.sub (.mul (.pow (.add (.pauli (.op ⟨.X, 0⟩)) (.num (.real 0.5))) 2) (.pauli (.op ⟨.Z, 1⟩)))
      (.div (.pauli (.op ⟨.Y, 0⟩)) (.real 2)),
    by simp [Formula.NoTermPower, Formula.kind], by simp [Formula.NoMixedProduct, Formula.kind],
    C33_defined _ (by simp [Formula.Accepted, Formula.kind, PyNum.val]), by simp [Formula.kind]⟩

/-! ## C32 -/

/-- C32. `simplify()` keeps the operator, leaves every qubit at most once in increasing order (the word contains no
identities by its type), and is idempotent. -/
theorem C32_simplify (t : PTerm) :
    termOp t.simplify = termOp t ∧ t.simplify.ops.Pairwise (fun a b => a.n < b.n) ∧
    t.simplify.simplify = t.simplify :=
  ⟨simplify_op t, simplify_normal t, simplify_of_normal _ (simplify_normal t)⟩

/-- C32. `simplify()` leaves terms that are already in this form alone, and decides equality of non-zero terms: two
terms denote the same operator iff they have the same simplified form. -/
theorem C32_canonical (s t : PTerm) (h : termOp s ≠ 0) : termOp s = termOp t ↔ s.simplify = t.simplify := by
  have hc : s.coeff ≠ 0 := by rintro h0; exact h (by rw [termOp, h0, zero_smul])
  constructor
  · intro ho
    have h1 := (termEq_iff hc).2 ho
    simp only [PTerm.eq, Bool.or_eq_true, decide_eq_true_eq] at h1
    rcases h1 with h1 | h1
    · rw [h1]
    · exact h1
  · intro he; rw [← simplify_op s, ← simplify_op t, he]

example : (⟨[⟨.X, 1⟩, ⟨.Y, 0⟩, ⟨.Z, 1⟩], 2⟩ : PTerm).simplify =
    ⟨[⟨.Y, 0⟩, ⟨.Y, 1⟩], -(2 * Complex.I)⟩ := by
  simp [PTerm.simplify, simplifyBefore, PyDict.set, PyDict.get, pySorted, List.mergeSort, List.MergeSort.Internal.splitInTwo,
    simplifyLoop, simplifyQubit, simplifyMul, mulMap, castReal_eq, List.merge]

/-! ## C34 -/

/-- C34. `e1 == e2` holds iff the two expressions denote the same operator. -/
theorem C34_equality (a b : PExpr) : a.eq b = true ↔ exprOp a = exprOp b := exprEq_iff a b

/-- C34. `simplify()` is a canonical form: it keeps the operator, and expressions of the same operator have the same
simplified form, however they were built. -/
theorem C34_canonical (a b : PExpr) :
    exprOp a.simplify = exprOp a ∧ (exprOp a = exprOp b ↔ a.simplify = b.simplify) :=
  ⟨exprSimplify_op a, simplify_canonical, fun h => by rw [← exprSimplify_op a, ← exprSimplify_op b, h]⟩

/-- C34. The simplified form has no zero coefficients, no word twice, and only words with increasing qubits. -/
theorem C34_form (a : PExpr) :
    (∀ t ∈ a.simplify.terms, t.coeff ≠ 0 ∧ t.ops.Pairwise (fun a b => a.n < b.n)) ∧
    (a.simplify.terms.map PTerm.ops).Nodup ∧ a.simplify.simplify = a.simplify :=
  ⟨fun t ht => ⟨exprSimplify_coeff a t ht, exprSimplify_normal a _ (List.mem_map_of_mem ht)⟩,
    exprSimplify_nodup a, simplify_canonical (exprSimplify_op a)⟩

/-- Two different ways to write `i Z[0] + X[0]` compare equal. -/
example : PExpr.eq ⟨[⟨[⟨.X, 0⟩, ⟨.Y, 0⟩], 1⟩, ⟨[⟨.X, 0⟩], 1⟩]⟩ ⟨[⟨[⟨.X, 0⟩], 1⟩, ⟨[⟨.Z, 0⟩], Complex.I⟩]⟩ = true := by
  rw [C34_equality]
  have := mulMap_op .X .Y 0
  simp only [mulMap, optOp] at this
  simp only [exprOp, termOp, List.map_cons, List.map_nil, List.sum_cons, List.sum_nil, wordOp_cons, wordOp_nil, mul_one,
    this]
  module

/-! ## C35 -/

theorem pauliOp_word (o : POp) : pauliOp (.op o) = (1 : ℂ) • wordOp [o] := by
  rw [wordOp_singleton, one_smul]; rfl

theorem termEq_comm (a b : PTerm) : a.eq b = b.eq a := by
  simp only [PTerm.eq, eq_comm]

theorem exprEq_comm (a b : PExpr) : a.eq b = b.eq a := by
  rw [Bool.eq_iff_iff, exprEq_iff, exprEq_iff, eq_comm]

theorem toTerm_coeff (p : Pauli) : p.toTerm.coeff = 1 := by
  cases p <;> simp [Pauli.toTerm, PTerm.fromPauli]

/-- C35 (partial). For a Pauli operator, a term and an expression in any combination, except a term with an expression
and the identity with another Pauli operator: the comparison is symmetric, and for a non-zero operator it says whether
the operators are equal. Missing: the two exceptions, see `C35_term_expr_refuted` and `C35_identity_refuted`. -/
theorem C35_symmetric_partial (a b : PVal) (ha : kindOf a ≠ .num) (hb : kindOf b ≠ .num)
    (h1 : ¬ (kindOf a = .term ∧ kindOf b = .expr)) (h2 : ¬ (kindOf a = .expr ∧ kindOf b = .term))
    (h3 : ∀ o, ¬ (a = .pauli .I ∧ b = .pauli (.op o)) ∧ ¬ (b = .pauli .I ∧ a = .pauli (.op o))) :
    ∃ r : Bool, pvEq a b = some (.ok r) ∧ pvEq b a = some (.ok r) ∧
      (valOp a ≠ 0 → (r = true ↔ valOp a = valOp b)) := by
  cases a <;> cases b <;> simp [kindOf] at ha hb h1 h2
  case pauli.pauli p q =>
    cases p with
    | I =>
      cases q with
      | I => exact ⟨true, rfl, rfl, fun _ => by simp⟩
      | op o => exact absurd ⟨rfl, rfl⟩ (h3 o).1
    | op a =>
      cases q with
      | I => exact absurd ⟨rfl, rfl⟩ (h3 a).2
      | op b =>
        refine ⟨_, rfl, ?_, fun _ => ?_⟩
        · simp only [pvEq, Pauli.eq, Option.some.injEq, Except.ok.injEq, eq_comm]
        · simp only [valOp, Bool.and_eq_true, decide_eq_true_eq]
          constructor
          · rintro ⟨h1, h2⟩
            have : a = b := by cases a; cases b; simp_all
            rw [this]
          · intro h
            rw [pauliOp_word, pauliOp_word] at h
            have := (term_inj (List.pairwise_singleton _ _) (List.pairwise_singleton _ _) one_ne_zero h).1
            simp at this; rw [this]; simp
  case pauli.term p t =>
    refine ⟨_, rfl, by rw [pvEq, termEq_comm], fun _ => ?_⟩
    rw [termEq_iff (by rw [toTerm_coeff]; exact one_ne_zero), toTerm_op]; rfl
  case pauli.expr p e =>
    refine ⟨_, rfl, by rw [pvEq, exprEq_comm], fun _ => ?_⟩
    rw [exprEq_iff, Pauli.toExpr, fromTerm_op, toTerm_op]; rfl
  case term.pauli t p =>
    refine ⟨_, rfl, by rw [pvEq, termEq_comm], fun h => ?_⟩
    have hc : t.coeff ≠ 0 := by rintro h0; exact h (by simp [valOp, termOp, h0])
    rw [termEq_iff hc, toTerm_op]; rfl
  case term.term t s =>
    refine ⟨_, rfl, by rw [pvEq, termEq_comm], fun h => ?_⟩
    have hc : t.coeff ≠ 0 := by rintro h0; exact h (by simp [valOp, termOp, h0])
    rw [termEq_iff hc]; rfl
  case expr.pauli e p =>
    refine ⟨_, rfl, by rw [pvEq, exprEq_comm], fun _ => ?_⟩
    rw [exprEq_iff, Pauli.toExpr, fromTerm_op, toTerm_op]; rfl
  case expr.expr e f =>
    refine ⟨_, rfl, by rw [pvEq, exprEq_comm], fun _ => ?_⟩
    rw [exprEq_iff]; rfl

/-- An expression compared with a term: true iff the operators are equal. -/
theorem C35_expr_term (e : PExpr) (t : PTerm) :
    ∃ r : Bool, pvEq (.expr e) (.term t) = some (.ok r) ∧ (r = true ↔ exprOp e = termOp t) :=
  ⟨_, rfl, by rw [exprEq_iff, fromTerm_op]⟩

/-- C35 is false for a term and an expression: `term == expr` is always False, also where `expr == term` is True. -/
theorem C35_term_expr_refuted :
    (∀ t e, pvEq (.term t) (.expr e) = some (.ok false)) ∧
    ∃ t e, termOp t ≠ 0 ∧ termOp t = exprOp e ∧ pvEq (.expr e) (.term t) = some (.ok true) := by
  refine ⟨fun _ _ => rfl, ⟨[⟨.X, 0⟩], 1⟩, ⟨[⟨[⟨.X, 0⟩], 1⟩]⟩, ?_, ?_, ?_⟩
  · rw [termOp, one_smul]; exact wordOp_ne _
  · simp [exprOp]
  · rw [pvEq]
    have := (exprEq_iff ⟨[⟨[⟨.X, 0⟩], 1⟩]⟩ (.fromTerm ⟨[⟨.X, 0⟩], 1⟩)).2 (by rw [fromTerm_op]; simp [exprOp])
    rw [this]

/-- C35 is false for the identity: `I == X[0]` is False but `X[0] == I` raises AttributeError. -/
theorem C35_identity_refuted (o : POp) :
    pvEq (.pauli .I) (.pauli (.op o)) = some (.ok false) ∧
    pvEq (.pauli (.op o)) (.pauli .I) = some (.error .attributeError) := ⟨rfl, rfl⟩

/-- Why C35 speaks of non-zero operators: `0*X[0]*Y[0]` and `0*X[0]` are unequal terms of the same operator. -/
theorem C35_zero_terms : ∃ s t : PTerm, termOp s = 0 ∧ termOp t = 0 ∧ pvEq (.term s) (.term t) = some (.ok false) := by
  refine ⟨⟨[⟨.X, 0⟩], 0⟩, ⟨[⟨.Z, 0⟩], 0⟩, by simp [termOp], by simp [termOp], ?_⟩
  have h1 : (⟨[⟨.X, 0⟩], 0⟩ : PTerm).simplify = ⟨[⟨.X, 0⟩], 0⟩ := simplify_of_normal _ (List.pairwise_singleton _ _)
  have h2 : (⟨[⟨.Z, 0⟩], 0⟩ : PTerm).simplify = ⟨[⟨.Z, 0⟩], 0⟩ := simplify_of_normal _ (List.pairwise_singleton _ _)
  simp [pvEq, PTerm.eq, h1, h2]

example : ∃ a b : PVal, kindOf a = .pauli ∧ kindOf b = .term ∧ valOp a ≠ 0 ∧ pvEq a b = some (.ok true) := by
  refine ⟨.pauli (.op ⟨.X, 0⟩), .term ⟨[⟨.X, 0⟩], 1⟩, rfl, rfl, ?_, ?_⟩
  · simp only [valOp, pauliOp_word, one_smul]; exact wordOp_ne _
  · simp [pvEq, Pauli.toTerm, PTerm.fromPauli, PTerm.eq]

end Blueqat
