import Verif.PyDict
import Mathlib.Analysis.Complex.Basic

/-!
# Pauli operators, terms and expressions (blueqat/pauli.py)

Simplifications: coefficients are exact complex numbers instead of Python's int, float or complex (the class
of a number matters for divisions, see `PyNum`, and for angles, see `Verif/PauliTyped.lean`); an index `n` is a natural number; a tuple `ops`
holds only `_X`, `_Y` and `_Z` objects, as every constructor of the module except the bare `Term(...)` ensures.
-/

namespace Blueqat

/-- The classes `_X`, `_Y`, `_Z` (pauli.py:324-331), by the letter `op` returns (line 231-233). -/
inductive PLetter where
  | X | Y | Z
  deriving DecidableEq, Repr

/-- An object `_X(n)`, `_Y(n)` or `_Z(n)` (pauli.py:324-331). -/
structure POp where
  p : PLetter
  n : ℕ
  deriving DecidableEq, Repr

/-- A Pauli object: `I` (pauli.py:352-362) or one of the others. -/
inductive Pauli where
  | I
  | op (o : POp)
  deriving DecidableEq, Repr

/-- `Term(ops, coeff)` (pauli.py:363-365). -/
structure PTerm where
  ops : List POp
  coeff : ℂ

/-- `Expr(terms)` (pauli.py:646-647). -/
structure PExpr where
  terms : List PTerm

/-- A number operand. `real` stands for int and float objects, `cplx` for complex objects: `Term.__truediv__`
(pauli.py:453) accepts only the former. -/
inductive PyNum where
  | real (x : ℝ)
  | cplx (z : ℂ)

noncomputable section

open Classical in
/-- Equality of two `(ops, coeff)` tuples, coefficients compared as numbers (`_TermTuple.__eq__`). -/
instance : DecidableEq PTerm := inferInstance

/-- The value of a number. -/
def PyNum.val : PyNum → ℂ
  | .real x => x
  | .cplx z => z

/-! ## Products of operators -/

/-- The loop of `join_ops` (pauli.py:415-422). The first argument is `i + 1`; the result is the final `i + 1`
and `j`. -/
def joinLoop (ops1 ops2 : List POp) : ℕ → ℕ → ℕ × ℕ
  | 0, j => (0, j)
  | i + 1, j =>
    if j < ops2.length ∧ ops1[i]? = ops2[j]? then joinLoop ops1 ops2 i (j + 1) else (i + 1, j)

/-- `Term.join_ops(ops1, ops2)` (pauli.py:413-423). -/
def joinOps (ops1 ops2 : List POp) : List POp :=
  let r := joinLoop ops1 ops2 ops1.length 0
  ops1.take r.1 ++ ops2.drop r.2

/-- `Term.from_pauli(pauli, coeff)` (pauli.py:380-384). -/
def PTerm.fromPauli (p : Pauli) (c : ℂ) : PTerm :=
  match p with
  | .I => ⟨[], c⟩
  | .op o => if c = 0 then ⟨[], c⟩ else ⟨[o], c⟩

/-- `Term.from_paulipair(pauli1, pauli2)` (pauli.py:375-377). -/
def PTerm.fromPauliPair (a b : POp) : PTerm := ⟨joinOps [a] [b], 1⟩

/-- `_PauliImpl.to_term()` (pauli.py:307-309). -/
def Pauli.toTerm (p : Pauli) : PTerm := .fromPauli p 1

/-- `_PauliImpl.__mul__` with a Pauli operand (pauli.py:267-273). -/
def Pauli.mul (a b : Pauli) : PTerm :=
  match a, b with
  | .I, b => b.toTerm
  | a, .I => a.toTerm
  | .op a, .op b => if a.n = b.n ∧ a.p = b.p then Pauli.I.toTerm else .fromPauliPair a b

/-- `Term.__mul__` with a Term operand (pauli.py:433-436). -/
def PTerm.mul (a b : PTerm) : PTerm := ⟨joinOps a.ops b.ops, a.coeff * b.coeff⟩

/-- `Term.__mul__` and `Term.__rmul__` with a number (pauli.py:431-432, 444-445). -/
def PTerm.scale (a : PTerm) (c : ℂ) : PTerm := ⟨a.ops, a.coeff * c⟩

/-- `Term.__mul__` with a Pauli operand (pauli.py:437-440). -/
def PTerm.mulPauli (a : PTerm) (p : Pauli) : PTerm :=
  match p with
  | .I => a
  | .op o => ⟨joinOps a.ops [o], a.coeff⟩

/-- `Term.__rmul__` with a Pauli operand (pauli.py:446-449). -/
def PTerm.rmulPauli (a : PTerm) (p : Pauli) : PTerm :=
  match p with
  | .I => a
  | .op o => ⟨joinOps [o] a.ops, a.coeff⟩

/-- `Term.__neg__` (pauli.py:481-482). -/
def PTerm.neg (a : PTerm) : PTerm := ⟨a.ops, -a.coeff⟩

/-- `Term.__truediv__` (pauli.py:452-457); `none` is `NotImplemented`. -/
def PTerm.div (a : PTerm) (x : PyNum) : Option (Except PyErr PTerm) :=
  match x with
  | .real r => some (if r = 0 then .error .zeroDivisionError else .ok ⟨a.ops, a.coeff / (r : ℂ)⟩)
  | .cplx _ => none

/-- `ops * n` for a tuple and a positive integer. Library behaviour. -/
def tupleRepeat {α : Type} (l : List α) : ℕ → List α
  | 0 => []
  | n + 1 => l ++ tupleRepeat l n

/-- `Term.__pow__` with an integer (pauli.py:459-467). -/
def PTerm.pow (a : PTerm) (n : ℤ) : Except PyErr PTerm :=
  if n < 0 then .error .valueError
  else if n = 0 then .ok (.fromPauli .I 1)
  else .ok ⟨tupleRepeat a.ops n.toNat, a.coeff ^ n.toNat⟩

/-! ## Term.simplify -/

/-- `_mul_map` (pauli.py:50-60); `none` is the letter `'I'`. -/
def mulMap : PLetter → PLetter → ℂ × Option PLetter
  | .X, .X => (1, none)
  | .X, .Y => (Complex.I, some .Z)
  | .X, .Z => (-Complex.I, some .Y)
  | .Y, .X => (-Complex.I, some .Z)
  | .Y, .Y => (1, none)
  | .Y, .Z => (Complex.I, some .X)
  | .Z, .X => (Complex.I, some .Y)
  | .Z, .Y => (-Complex.I, some .X)
  | .Z, .Z => (1, none)

/-- The inner function `mul` of `simplify` (pauli.py:524-529). -/
def simplifyMul (op1 op2 : Option PLetter) : ℂ × Option PLetter :=
  match op1, op2 with
  | none, op2 => (1, op2)
  | op1, none => (1, op1)
  | some a, some b => mulMap a b

/-- `before`: the letters of every qubit, in order (pauli.py:531-535; no `I` occurs in `ops`). -/
def simplifyBefore (ops : List POp) : PyDict ℕ (List PLetter) :=
  ops.foldl (fun d o => d.set o.n ((d.get o.n).getD [] ++ [o.p])) []

/-- The product of the letters of one qubit (pauli.py:539-544). The empty list (the failing `assert`) does not
occur in `simplifyBefore`; it is given the identity here. -/
def simplifyQubit : List PLetter → ℂ × Option PLetter
  | [] => (1, none)
  | p :: ps => ps.foldl (fun (s : ℂ × Option PLetter) q =>
      let r := simplifyMul s.2 (some q)
      (s.1 * r.1, r.2)) (1, some p)

/-- `if new_coeff.imag == 0: new_coeff = new_coeff.real` (pauli.py:546-548). -/
def castReal (z : ℂ) : ℂ := if z.im = 0 then (z.re : ℂ) else z

/-- The loop over the qubits (pauli.py:538-550): coefficient and operators so far. -/
def simplifyLoop (before : PyDict ℕ (List PLetter)) : List ℕ → ℂ × List POp → ℂ × List POp
  | [], s => s
  | n :: ns, (c, ops) =>
    let r := simplifyQubit ((before.get n).getD [])
    let c := castReal (c * r.1)
    let ops := match r.2 with
      | none => ops
      | some p => ops ++ [⟨p, n⟩]
    simplifyLoop before ns (c, ops)

/-- `sorted(keys)` for integers. Library behaviour. -/
def pySorted (l : List ℕ) : List ℕ := l.mergeSort (fun a b => decide (a ≤ b))

/-- `Term.simplify()` (pauli.py:522-551). -/
def PTerm.simplify (t : PTerm) : PTerm :=
  let before := simplifyBefore t.ops
  let r := simplifyLoop before (pySorted (before.map Prod.fst)) (t.coeff, [])
  ⟨r.2, r.1⟩

/-! ## Expressions -/

/-- `Expr.zero()` (pauli.py:677-679). -/
def PExpr.zero : PExpr := ⟨[]⟩

/-- `Expr.from_term(term)` (pauli.py:656-660). -/
def PExpr.fromTerm (t : PTerm) : PExpr := if t.coeff ≠ 0 then ⟨[t]⟩ else .zero

/-- `Expr.from_number(num)` (pauli.py:649-653). -/
def PExpr.fromNumber (z : ℂ) : PExpr := if z ≠ 0 then .fromTerm ⟨[], z⟩ else .zero

/-- `Expr.from_terms_iter(terms)` (pauli.py:663-665). -/
def PExpr.fromTermsIter (ts : List PTerm) : PExpr := ⟨ts.filter (fun t => decide (t.coeff ≠ 0))⟩

/-- `terms_to_dict()` (pauli.py:667-669). -/
def PExpr.termsToDict (e : PExpr) : PyDict (List POp) ℂ :=
  (e.terms.filter (fun t => decide (t.coeff ≠ 0))).foldl (fun d t => d.set t.ops t.coeff) []

/-- `Expr.from_terms_dict(terms_dict)` (pauli.py:672-674). -/
def PExpr.fromTermsDict (d : PyDict (List POp) ℂ) : PExpr :=
  ⟨(d.filter (fun p => decide (p.2 ≠ 0))).map (fun p => ⟨p.1, p.2⟩)⟩

/-- `_PauliImpl.to_expr()` (pauli.py:311-313). -/
def Pauli.toExpr (p : Pauli) : PExpr := .fromTerm p.toTerm

/-- One pass of the loop of `Expr.__add__` (pauli.py:705-711). -/
def addStep (d : PyDict (List POp) ℂ) (t : PTerm) : PyDict (List POp) ℂ :=
  match d.get t.ops with
  | some v =>
    let d := d.set t.ops (v + t.coeff)
    if v + t.coeff = 0 then d.del t.ops else d
  | none => d.set t.ops t.coeff

/-- One pass of the loop of `Expr.__sub__` (pauli.py:722-728). -/
def subStep (d : PyDict (List POp) ℂ) (t : PTerm) : PyDict (List POp) ℂ :=
  match d.get t.ops with
  | some v =>
    let d := d.set t.ops (v - t.coeff)
    if v - t.coeff = 0 then d.del t.ops else d
  | none => d.set t.ops (-t.coeff)

/-- `Expr.__add__` with an Expr (pauli.py:703-712). -/
def PExpr.add (a b : PExpr) : PExpr := .fromTermsDict (b.terms.foldl addStep a.termsToDict)

/-- `Expr.__sub__` with an Expr (pauli.py:720-729). -/
def PExpr.sub (a b : PExpr) : PExpr := .fromTermsDict (b.terms.foldl subStep a.termsToDict)

/-- `Expr.__neg__` (pauli.py:746-747). -/
def PExpr.neg (a : PExpr) : PExpr := ⟨a.terms.map PTerm.neg⟩

/-- `Expr.__mul__` and `Expr.__rmul__` with a number (pauli.py:750-753, 767-770). -/
def PExpr.scale (a : PExpr) (z : ℂ) : PExpr :=
  if z = 0 then .fromNumber 0 else .fromTermsIter (a.terms.map (fun t => ⟨t.ops, t.coeff * z⟩))

/-- `Expr.__mul__` with a Term (pauli.py:756-757). -/
def PExpr.mulTerm (a : PExpr) (t : PTerm) : PExpr := ⟨a.terms.map (fun s => s.mul t)⟩

/-- `Expr.__rmul__` with a Term (pauli.py:773-774). -/
def PExpr.rmulTerm (a : PExpr) (t : PTerm) : PExpr := ⟨a.terms.map (fun s => t.mul s)⟩

/-- `terms[ops] += coeff` on a `defaultdict(float)` (pauli.py:762, 863). -/
def dictAdd (d : PyDict (List POp) ℂ) (t : PTerm) : PyDict (List POp) ℂ :=
  d.set t.ops ((d.get t.ops).getD 0 + t.coeff)

/-- `Expr.__mul__` with an Expr (pauli.py:758-763). -/
def PExpr.mul (a b : PExpr) : PExpr :=
  .fromTermsDict ((a.terms.flatMap (fun s => b.terms.map (fun t => s.mul t))).foldl dictAdd [])

/-- `tuple(term / other for term in self.terms)` (pauli.py:780): the first failing division raises; a division by
a complex number is `NotImplemented`, hence a TypeError. -/
def divTerms (x : PyNum) : List PTerm → Except PyErr (List PTerm)
  | [] => .ok []
  | t :: ts =>
    match t.div x with
    | none => .error .typeError
    | some (.error e) => .error e
    | some (.ok t') =>
      match divTerms x ts with
      | .error e => .error e
      | .ok ts' => .ok (t' :: ts')

/-- `Expr.__truediv__` with a number (pauli.py:777-782). -/
def PExpr.div (a : PExpr) (x : PyNum) : Except PyErr PExpr :=
  if x.val ≠ 0 then
    match divTerms x a.terms with
    | .error e => .error e
    | .ok ts => .ok ⟨ts⟩
  else .error .zeroDivisionError

/-- The loop `for _ in range(k): val *= self` (pauli.py:792-793). -/
def PExpr.powLoop (a : PExpr) : ℕ → PExpr → PExpr
  | 0, val => val
  | k + 1, val => powLoop a k (val.mul a)

/-- `Expr.__pow__` with an integer (pauli.py:784-795). -/
def PExpr.pow (a : PExpr) (n : ℤ) : Except PyErr PExpr :=
  if n < 0 then .error .valueError
  else if n = 0 then .ok (.fromNumber 1)
  else .ok (a.powLoop (n - 1).toNat a)

/-- `repr` of a Pauli object in `ops` (pauli.py:302-305). -/
def POp.repr (o : POp) : String :=
  (match o.p with | .X => "X" | .Y => "Y" | .Z => "Z") ++ "[" ++ toString o.n ++ "]"

/-- `repr` of a tuple of Pauli objects. Library behaviour. -/
def opsRepr : List POp → String
  | [] => "()"
  | [o] => "(" ++ o.repr ++ ",)"
  | os => "(" ++ String.intercalate ", " (os.map POp.repr) ++ ")"

/-- `a <= b` for two strings: the first difference decides, by code point. Library behaviour. -/
def strLe : List Char → List Char → Bool
  | [], _ => true
  | _ :: _, [] => false
  | a :: x, b :: y => if a.toNat < b.toNat then true else if a.toNat = b.toNat then strLe x y else false

/-- `sorted(d, key=repr)` (pauli.py:865), a stable sort. Library behaviour. -/
def sortByRepr (l : List (List POp)) : List (List POp) :=
  l.mergeSort (fun a b => strLe (opsRepr a).toList (opsRepr b).toList)

/-- The dictionary `d` of `Expr.simplify` (pauli.py:860-863). -/
def PExpr.simplifyDict (e : PExpr) : PyDict (List POp) ℂ :=
  (e.terms.map PTerm.simplify).foldl dictAdd []

/-- `Expr.simplify()` (pauli.py:858-865). -/
def PExpr.simplify (e : PExpr) : PExpr :=
  let d := e.simplifyDict
  .fromTermsIter (((sortByRepr (d.map Prod.fst)).filter (fun k => decide ((d.get k).getD 0 ≠ 0))).map
    (fun k => ⟨k, (d.get k).getD 0⟩))

/-! ## The operators of Python on numbers, Paulis, terms and expressions -/

/-- An operand. -/
inductive PVal where
  | num (x : PyNum)
  | pauli (p : Pauli)
  | term (t : PTerm)
  | expr (e : PExpr)

/-- Arithmetic of two Python numbers: complex if one of them is. Library behaviour. -/
def PyNum.lift (f : ∀ {α : Type}, [Field α] → α → α → α) : PyNum → PyNum → PyNum
  | .real x, .real y => .real (f x y)
  | a, b => .cplx (f a.val b.val)

/-- `a * b`. The method of the left operand is tried first, then the reflected method of the right operand
(pauli.py:262-278, 430-450, 749-775). -/
def pvMul : PVal → PVal → PVal
  | .num x, .num y => .num (PyNum.lift (fun a b => a * b) x y)
  | .num x, .pauli p => .term (.fromPauli p x.val)
  | .num x, .term t => .term (t.scale x.val)
  | .num x, .expr e => .expr (e.scale x.val)
  | .pauli p, .num x => .term (.fromPauli p x.val)
  | .pauli p, .pauli q => .term (p.mul q)
  | .pauli p, .term t => .term (t.rmulPauli p)
  | .pauli p, .expr e => .expr (e.rmulTerm p.toTerm)
  | .term t, .num x => .term (t.scale x.val)
  | .term t, .pauli p => .term (t.mulPauli p)
  | .term t, .term s => .term (t.mul s)
  | .term t, .expr e => .expr (e.rmulTerm t)
  | .expr e, .num x => .expr (e.scale x.val)
  | .expr e, .pauli p => .expr (e.mulTerm p.toTerm)
  | .expr e, .term t => .expr (e.mulTerm t)
  | .expr e, .expr f => .expr (e.mul f)

/-- The operand as an Expr: `Expr.from_number`, `to_expr()`, `Expr.from_term` (pauli.py:647-660, 311-313). -/
def PVal.toExpr : PVal → PExpr
  | .num x => .fromNumber x.val
  | .pauli p => p.toExpr
  | .term t => .fromTerm t
  | .expr e => e

/-- `a + b` (pauli.py:287-291, 469-473, 698-713, 732-737). Every path ends in `Expr.__add__` of the two operands
converted to Expr: e.g. `Pauli.__add__` is `self.to_expr() + other`; when `other` is a Pauli, `Expr.__add__` returns
`NotImplemented` and `other.__radd__` computes `expr + other.to_expr()`. -/
def pvAdd : PVal → PVal → PVal
  | .num x, .num y => .num (PyNum.lift (fun a b => a + b) x y)
  | a, b => .expr (a.toExpr.add b.toExpr)

/-- `a - b` (pauli.py:293-297, 475-479, 715-730, 739-744), as `pvAdd`. -/
def pvSub : PVal → PVal → PVal
  | .num x, .num y => .num (PyNum.lift (fun a b => a - b) x y)
  | a, b => .expr (a.toExpr.sub b.toExpr)

/-- `-a` (pauli.py:299-300, 481-482, 746-747). -/
def pvNeg : PVal → PVal
  | .num (.real x) => .num (.real (-x))
  | .num (.cplx z) => .num (.cplx (-z))
  | .pauli p => .term (.fromPauli p (-1))
  | .term t => .term t.neg
  | .expr e => .expr e.neg

/-- `a / x` for a number `x` (pauli.py:280-285, 452-457, 777-782). -/
def pvDiv : PVal → PyNum → Except PyErr PVal
  | .num a, x => if x.val = 0 then .error .zeroDivisionError
      else .ok (.num (PyNum.lift (fun a b => a / b) a x))
  | .pauli p, x => if x.val = 0 then .error .zeroDivisionError else .ok (.term (.fromPauli p (1 / x.val)))
  | .term t, x =>
    match t.div x with
    | none => .error .typeError
    | some (.error e) => .error e
    | some (.ok t) => .ok (.term t)
  | .expr e, x =>
    match e.div x with
    | .error e => .error e
    | .ok e => .ok (.expr e)

/-- `a ** n` for an integer `n` (pauli.py:459-467, 784-795); a Pauli object has no `__pow__`. -/
def pvPow : PVal → ℤ → Except PyErr PVal
  | .num (.real x), n => if n < 0 ∧ x = 0 then .error .zeroDivisionError else .ok (.num (.real (x ^ n)))
  | .num (.cplx z), n => if n < 0 ∧ z = 0 then .error .zeroDivisionError else .ok (.num (.cplx (z ^ n)))
  | .pauli _, _ => .error .typeError
  | .term t, n =>
    match t.pow n with
    | .error e => .error e
    | .ok t => .ok (.term t)
  | .expr e, n =>
    match e.pow n with
    | .error e => .error e
    | .ok e => .ok (.expr e)

/-! ## Equality -/

/-- `_PauliImpl.__eq__` of two Pauli objects (pauli.py:248-252). `_n(I)` has no attribute `n`. -/
def Pauli.eq (a b : Pauli) : Except PyErr Bool :=
  match a, b with
  | .I, .I => .ok true
  | .I, .op _ => .ok false
  | .op _, .I => .error .attributeError
  | .op a, .op b => .ok (decide (a.n = b.n) && decide (a.p = b.p))

/-- `Term.__eq__` of two Terms (pauli.py:497-501). -/
def PTerm.eq (a b : PTerm) : Bool := decide (a = b) || decide (a.simplify = b.simplify)

/-- `==` of two tuples of Terms: same length and equal elements (library behaviour). -/
def termsEq : List PTerm → List PTerm → Bool
  | [], [] => true
  | a :: as, b :: bs => a.eq b && termsEq as bs
  | _, _ => false

/-- `Expr.__eq__` of two Exprs (pauli.py:688-693). -/
def PExpr.eq (a b : PExpr) : Bool := termsEq a.terms b.terms || termsEq a.simplify.terms b.simplify.terms

/-- `a == b` for Paulis, terms and expressions (pauli.py:248-257, 497-501, 688-693). `Term.__eq__` with an Expr
compares a pair with a 1-tuple, twice, and returns False. A comparison with a number is not modelled. -/
def pvEq : PVal → PVal → Option (Except PyErr Bool)
  | .pauli p, .pauli q => some (p.eq q)
  | .pauli p, .term t => some (.ok (p.toTerm.eq t))
  | .pauli p, .expr e => some (.ok (p.toExpr.eq e))
  | .term t, .pauli p => some (.ok (t.eq p.toTerm))
  | .term t, .term s => some (.ok (t.eq s))
  | .term _, .expr _ => some (.ok false)
  | .expr e, .pauli p => some (.ok (e.eq p.toExpr))
  | .expr e, .term t => some (.ok (e.eq (.fromTerm t)))
  | .expr e, .expr f => some (.ok (e.eq f))
  | _, _ => none

/-! ## Commutators -/

/-- `commutator(expr1, expr2)` (pauli.py:192-204). -/
def commutator (a b : PExpr) : PExpr :=
  let a := a.simplify
  let b := b.simplify
  ((a.mul b).sub (b.mul a)).simplify

/-- `is_commutable(expr1, expr2, eps)` (pauli.py:207-219). -/
def isCommutable (a b : PExpr) (eps : ℝ) : Bool :=
  decide (((commutator a b).terms.map (fun t => (t.coeff * (starRingEnd ℂ) t.coeff).re)).sum < eps)

/-- The pairs of `itertools.combinations(terms, 2)`. Library behaviour. -/
def combinations2 {α : Type} : List α → List (α × α)
  | [] => []
  | x :: xs => xs.map (fun y => (x, y)) ++ combinations2 xs

/-- `Expr.is_all_terms_commutable()` (pauli.py:854-856), with the default `eps` of line 207. -/
def PExpr.isAllTermsCommutable (e : PExpr) : Bool :=
  (combinations2 e.terms).all (fun p => isCommutable (.fromTerm p.1) (.fromTerm p.2) 0.00000001)

/-! ## Properties of terms and expressions -/

/-- `Term.max_n() + 1`, i.e. `Term.n_qubits` (pauli.py:558-571). -/
def PTerm.nQubits (t : PTerm) : ℕ := t.ops.foldl (fun m o => max m (o.n + 1)) 0

/-- `Expr.n_qubits` (pauli.py:824-839). -/
def PExpr.nQubits (e : PExpr) : ℕ :=
  (e.terms.filter (fun t => decide (t.ops ≠ []))).foldl (fun m t => max m t.nQubits) 0

/-- `_PauliImpl.is_identity` (pauli.py:235-238). -/
def Pauli.isIdentity : Pauli → Bool
  | .I => true
  | .op _ => false

/-- `_PauliImpl.n_qubits` (pauli.py:240-243). -/
def Pauli.nQubits : Pauli → ℕ
  | .I => 0
  | .op o => o.n + 1

/-- `Term.is_identity` (pauli.py:426-428). -/
def PTerm.isIdentity (t : PTerm) : Bool := decide (t.ops = [])

/-- `Expr.is_identity` (pauli.py:682-686). -/
def PExpr.isIdentity (e : PExpr) : Bool :=
  match e.terms with
  | [] => true
  | [t] => decide (t.ops = []) && decide (t.coeff = 1)
  | _ => false

/-! ## Terms from characters -/

/-- `str.upper` of one character, as far as a comparison with `"I"`, `"X"`, `"Y"`, `"Z"` can tell: the letters
a-z, and the dotless i (U+0131), whose upper case is `I`. Other characters are returned unchanged (simplification;
no other character has one of these four letters as its upper case). Library behaviour. -/
def pyUpper (c : Char) : Char :=
  if c = Char.ofNat 0x131 then 'I' else c.toUpper

/-- `pauli_from_char(ch, n)` (pauli.py:127-149). -/
def pauliFromChar (ch : Char) (n : ℕ) : Except PyErr Pauli :=
  let ch := pyUpper ch
  if ch = 'I' then .ok .I
  else if ch = 'X' then .ok (.op ⟨.X, n⟩)
  else if ch = 'Y' then .ok (.op ⟨.Y, n⟩)
  else if ch = 'Z' then .ok (.op ⟨.Z, n⟩)
  else .error .valueError

/-- `[pauli_from_char(c, n) for n, c in enumerate(chars) if c != "I"]`, from number `n` on (pauli.py:405). -/
def paulisFromChars : ℕ → List Char → Except PyErr (List Pauli)
  | _, [] => .ok []
  | n, c :: cs =>
    if c ≠ 'I' then
      match pauliFromChar c n with
      | .error e => .error e
      | .ok p =>
        match paulisFromChars (n + 1) cs with
        | .error e => .error e
        | .ok ps => .ok (p :: ps)
    else paulisFromChars (n + 1) cs

/-- `Term.from_chars(chars)` (pauli.py:392-410). -/
def PTerm.fromChars (chars : List Char) : Except PyErr PTerm :=
  match paulisFromChars 0 chars with
  | .error e => .error e
  | .ok [] => .ok (.fromPauli .I 1)
  | .ok [p] => .ok (.fromPauli p 1)
  | .ok (p :: q :: ps) => .ok (ps.foldl PTerm.mulPauli (p.mul q))

/-- `term_from_chars(chars)` (pauli.py:152-165). -/
def termFromChars (chars : List Char) : Except PyErr PTerm := PTerm.fromChars chars.reverse

/-- `qubo_bit(n)` (pauli.py:904-913): `0.5 - 0.5*Z[n]`. -/
def quboBit (n : ℕ) : PVal :=
  pvSub (.num (.real 0.5)) (pvMul (.num (.real 0.5)) (.pauli (.op ⟨.Z, n⟩)))

end

end Blueqat
