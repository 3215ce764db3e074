import Verif.PauliFloat

/-!
# Products, differences and commutators of Pauli expressions in rounded arithmetic (blueqat/pauli.py)

As in `Verif.Pauli`, but with the arithmetic `P : PauliOps` of the machine (`Verif.PauliFloat`). Line numbers are of
blueqat/pauli.py. A difference `x - y` is computed as `x + (-y)`, which is the same for IEEE numbers; changing a sign is exact.
-/

namespace Blueqat

noncomputable section

/-- `Term.__mul__` with a Term operand (lines 433-436). -/
def PTerm.flMul (P : PauliOps) (a b : PTerm) : PTerm := ⟨joinOps a.ops b.ops, P.mul a.coeff b.coeff⟩

/-- `Expr.__mul__` with an Expr (lines 758-763). -/
def PExpr.flMul (P : PauliOps) (a b : PExpr) : PExpr :=
  .fromTermsDict ((a.terms.flatMap (fun s => b.terms.map (fun t => s.flMul P t))).foldl (flDictAdd P) [])

/-- One pass of the loop of `Expr.__add__` (lines 705-711). -/
def flAddStep (P : PauliOps) (d : PyDict (List POp) ℂ) (t : PTerm) : PyDict (List POp) ℂ :=
  match d.get t.ops with
  | some v =>
    let d := d.set t.ops (P.add v t.coeff)
    if P.add v t.coeff = 0 then d.del t.ops else d
  | none => d.set t.ops t.coeff

/-- One pass of the loop of `Expr.__sub__` (lines 722-728). -/
def flSubStep (P : PauliOps) (d : PyDict (List POp) ℂ) (t : PTerm) : PyDict (List POp) ℂ :=
  match d.get t.ops with
  | some v =>
    let d := d.set t.ops (P.add v (-t.coeff))
    if P.add v (-t.coeff) = 0 then d.del t.ops else d
  | none => d.set t.ops (-t.coeff)

/-- `Expr.__add__` with an Expr (lines 703-712). -/
def PExpr.flAdd (P : PauliOps) (a b : PExpr) : PExpr := .fromTermsDict (b.terms.foldl (flAddStep P) a.termsToDict)

/-- `Expr.__sub__` with an Expr (lines 720-729). -/
def PExpr.flSub (P : PauliOps) (a b : PExpr) : PExpr := .fromTermsDict (b.terms.foldl (flSubStep P) a.termsToDict)

/-- `commutator(expr1, expr2)` (lines 192-204). -/
def flCommutator (P : PauliOps) (a b : PExpr) : PExpr :=
  let a := a.flSimplify P
  let b := b.flSimplify P
  ((a.flMul P b).flSub P (b.flMul P a)).flSimplify P

/-- `sum((x * x.conjugate()).real for x in commutator(expr1, expr2).coeffs())` (line 219). -/
def flCommutatorSize (P : PauliOps) (a b : PExpr) : ℝ :=
  ((flCommutator P a b).terms.map (fun t => (P.mul t.coeff ((starRingEnd ℂ) t.coeff)).re)).foldl
    (fun (s x : ℝ) => (P.add (s : ℂ) (x : ℂ)).re) 0

/-- `is_commutable(expr1, expr2, eps)` (lines 207-219). -/
def flIsCommutable (P : PauliOps) (a b : PExpr) (eps : ℝ) : Bool := decide (flCommutatorSize P a b < eps)

/-- `Expr.is_all_terms_commutable()` (lines 854-856), with the default `eps` of line 207. -/
def PExpr.flIsAllTermsCommutable (P : PauliOps) (e : PExpr) : Bool :=
  (combinations2 e.terms).all (fun p => flIsCommutable P (.fromTerm p.1) (.fromTerm p.2) 0.00000001)

/-! ## The operators of Python on numbers, Paulis, terms and expressions -/

/-- The arithmetic of coefficients: also division and powers. -/
structure AlgOps extends PauliOps where
  /-- `/` (lines 283, 455) -/
  div : ℂ → ℂ → ℂ
  /-- `**` with an integer (line 466) -/
  pow : ℂ → ℤ → ℂ

/-- Exact arithmetic. -/
def AlgOps.exact : AlgOps where
  toPauliOps := .exact
  div a b := a / b
  pow a n := a ^ n

/-- Every operation on floats is rounded by `fl`. The two parts of a quotient are rounded: so CPython divides by a float; its
division by a complex number takes more roundings. A power is a repeated product, starting from 1; the reciprocal is taken for a
negative exponent. -/
def AlgOps.rounded (fl : ℝ → ℝ) : AlgOps where
  toPauliOps := .rounded fl
  div a b := ⟨fl (a / b).re, fl (a / b).im⟩
  pow a n :=
    let r := (List.replicate n.natAbs a).foldl (PauliOps.rounded fl).mul 1
    if 0 ≤ n then r else ⟨fl (1 / r).re, fl (1 / r).im⟩

/-- Arithmetic of two Python numbers, as `PyNum.lift`. The result for two floats is the real part of that for complex numbers. -/
def PyNum.flLift (f : ℂ → ℂ → ℂ) : PyNum → PyNum → PyNum
  | .real x, .real y => .real (f x y).re
  | a, b => .cplx (f a.val b.val)

/-- `Term.__mul__` and `Term.__rmul__` with a number (lines 431-432, 444-445). -/
def PTerm.flScale (P : PauliOps) (a : PTerm) (c : ℂ) : PTerm := ⟨a.ops, P.mul a.coeff c⟩

/-- `Expr.__mul__` and `Expr.__rmul__` with a number (lines 750-753, 767-770). -/
def PExpr.flScale (P : PauliOps) (a : PExpr) (z : ℂ) : PExpr :=
  if z = 0 then .fromNumber 0 else .fromTermsIter (a.terms.map (fun t => ⟨t.ops, P.mul t.coeff z⟩))

/-- `Expr.__mul__` with a Term (lines 756-757). -/
def PExpr.flMulTerm (P : PauliOps) (a : PExpr) (t : PTerm) : PExpr := ⟨a.terms.map (fun s => s.flMul P t)⟩

/-- `Expr.__rmul__` with a Term (lines 773-774). -/
def PExpr.flRmulTerm (P : PauliOps) (a : PExpr) (t : PTerm) : PExpr := ⟨a.terms.map (fun s => t.flMul P s)⟩

/-- `a * b`, as `pvMul` (lines 262-278, 430-450, 749-775). -/
def flPvMul (P : PauliOps) : PVal → PVal → PVal
  | .num x, .num y => .num (PyNum.flLift P.mul x y)
  | .num x, .pauli p => .term (.fromPauli p x.val)
  | .num x, .term t => .term (t.flScale P x.val)
  | .num x, .expr e => .expr (e.flScale P x.val)
  | .pauli p, .num x => .term (.fromPauli p x.val)
  | .pauli p, .pauli q => .term (p.mul q)
  | .pauli p, .term t => .term (t.rmulPauli p)
  | .pauli p, .expr e => .expr (e.flRmulTerm P p.toTerm)
  | .term t, .num x => .term (t.flScale P x.val)
  | .term t, .pauli p => .term (t.mulPauli p)
  | .term t, .term s => .term (t.flMul P s)
  | .term t, .expr e => .expr (e.flRmulTerm P t)
  | .expr e, .num x => .expr (e.flScale P x.val)
  | .expr e, .pauli p => .expr (e.flMulTerm P p.toTerm)
  | .expr e, .term t => .expr (e.flMulTerm P t)
  | .expr e, .expr f => .expr (e.flMul P f)

/-- `a + b`, as `pvAdd` (lines 287-291, 469-473, 698-713, 732-737). -/
def flPvAdd (P : PauliOps) : PVal → PVal → PVal
  | .num x, .num y => .num (PyNum.flLift P.add x y)
  | a, b => .expr (a.toExpr.flAdd P b.toExpr)

/-- `a - b`, as `pvSub` (lines 293-297, 475-479, 715-730, 739-744). -/
def flPvSub (P : PauliOps) : PVal → PVal → PVal
  | .num x, .num y => .num (PyNum.flLift (fun a b => P.add a (-b)) x y)
  | a, b => .expr (a.toExpr.flSub P b.toExpr)

/-- `Term.__truediv__` (lines 452-457); `none` is `NotImplemented`. -/
def PTerm.flDiv (Q : AlgOps) (a : PTerm) (x : PyNum) : Option (Except PyErr PTerm) :=
  match x with
  | .real r => some (if r = 0 then .error .zeroDivisionError else .ok ⟨a.ops, Q.div a.coeff (r : ℂ)⟩)
  | .cplx _ => none

/-- `tuple(term / other for term in self.terms)` (line 780), as `divTerms`. -/
def flDivTerms (Q : AlgOps) (x : PyNum) : List PTerm → Except PyErr (List PTerm)
  | [] => .ok []
  | t :: ts =>
    match t.flDiv Q x with
    | none => .error .typeError
    | some (.error e) => .error e
    | some (.ok t') =>
      match flDivTerms Q x ts with
      | .error e => .error e
      | .ok ts' => .ok (t' :: ts')

/-- `Expr.__truediv__` with a number (lines 777-782). -/
def PExpr.flDiv (Q : AlgOps) (a : PExpr) (x : PyNum) : Except PyErr PExpr :=
  if x.val ≠ 0 then
    match flDivTerms Q x a.terms with
    | .error e => .error e
    | .ok ts => .ok ⟨ts⟩
  else .error .zeroDivisionError

/-- `a / x` for a number `x`, as `pvDiv` (lines 280-285, 452-457, 777-782). -/
def flPvDiv (Q : AlgOps) : PVal → PyNum → Except PyErr PVal
  | .num a, x => if x.val = 0 then .error .zeroDivisionError else .ok (.num (PyNum.flLift Q.div a x))
  | .pauli p, x => if x.val = 0 then .error .zeroDivisionError else .ok (.term (.fromPauli p (Q.div 1 x.val)))
  | .term t, x =>
    match t.flDiv Q x with
    | none => .error .typeError
    | some (.error e) => .error e
    | some (.ok t) => .ok (.term t)
  | .expr e, x =>
    match e.flDiv Q x with
    | .error e => .error e
    | .ok e => .ok (.expr e)

/-- `Term.__pow__` with an integer (lines 459-467). -/
def PTerm.flPow (Q : AlgOps) (a : PTerm) (n : ℤ) : Except PyErr PTerm :=
  if n < 0 then .error .valueError
  else if n = 0 then .ok (.fromPauli .I 1)
  else .ok ⟨tupleRepeat a.ops n.toNat, Q.pow a.coeff n⟩

/-- The loop `for _ in range(k): val *= self` (lines 792-793). -/
def PExpr.flPowLoop (P : PauliOps) (a : PExpr) : ℕ → PExpr → PExpr
  | 0, val => val
  | k + 1, val => flPowLoop P a k (val.flMul P a)

/-- `Expr.__pow__` with an integer (lines 784-795). -/
def PExpr.flPow (P : PauliOps) (a : PExpr) (n : ℤ) : Except PyErr PExpr :=
  if n < 0 then .error .valueError
  else if n = 0 then .ok (.fromNumber 1)
  else .ok (a.flPowLoop P (n - 1).toNat a)

/-- `a ** n` for an integer `n`, as `pvPow` (lines 459-467, 784-795). -/
def flPvPow (Q : AlgOps) : PVal → ℤ → Except PyErr PVal
  | .num (.real x), n => if n < 0 ∧ x = 0 then .error .zeroDivisionError else .ok (.num (.real (Q.pow x n).re))
  | .num (.cplx z), n => if n < 0 ∧ z = 0 then .error .zeroDivisionError else .ok (.num (.cplx (Q.pow z n)))
  | .pauli _, _ => .error .typeError
  | .term t, n =>
    match t.flPow Q n with
    | .error e => .error e
    | .ok t => .ok (.term t)
  | .expr e, n =>
    match e.flPow Q.toPauliOps n with
    | .error e => .error e
    | .ok e => .ok (.expr e)

end

end Blueqat
