import Verif.PauliMatrix

/-!
# Model of the remaining methods of Pauli operators, terms and expressions

`!=` and comparisons with numbers, conversions, the commutator methods, iteration, constructors and copying
(blueqat/pauli.py:168-219, 248-260, 307-365, 387-389, 497-520, 554-571, 688-696, 797-852).

A value is a number or an object of the module (`PVal`). A method that a class does not have is AttributeError.
-/

namespace Blueqat

noncomputable section

/-! ## Comparison -/

/-- `a == b` for all values. `_PauliImpl.__eq__` and `Expr.__eq__` return NotImplemented for a number (pauli.py:257,
693). So does `Term.__eq__` (pauli.py:497-501): `_TermTuple.__eq__` of a tuple and a number is NotImplemented, which is
a true value, so `or` returns it (before Python 3.14, where it raises). A comparison which both operands leave
unimplemented is False. Two numbers are compared as numbers. -/
def pvEqPy : PVal → PVal → Except PyErr Bool
  | .num x, .num y => .ok (decide (x.val = y.val))
  | .num _, _ => .ok false
  | _, .num _ => .ok false
  | a, b => match pvEq a b with
    | some r => r
    | none => .ok false

/-- `a != b`: `not self == other` of the left operand, or of the right one if the left one is a number
(pauli.py:259-260, 503-504, 695-696). -/
def pvNe : PVal → PVal → Except PyErr Bool
  | .num x, .num y => .ok (!decide (x.val = y.val))
  | .num x, b => do .ok (!(← pvEqPy b (.num x)))
  | a, b => do .ok (!(← pvEqPy a b))

/-! ## Conversion -/

/-- `to_term(v)`, `v.to_term()` (pauli.py:168-177, 307-309, 506-508). Numbers and Exprs have no such method. -/
def pvToTerm : PVal → Except PyErr PTerm
  | .num _ => .error .attributeError
  | .pauli p => .ok p.toTerm
  | .term t => .ok t
  | .expr _ => .error .attributeError

/-- `to_expr(v)`, `v.to_expr()` (pauli.py:180-189, 311-313, 510-512, 820-822). Numbers have no such method. -/
def pvToExpr : PVal → Except PyErr PExpr
  | .num _ => .error .attributeError
  | .pauli p => .ok p.toExpr
  | .term t => .ok (.fromTerm t)
  | .expr e => .ok e

/-! ## Commutators -/

/-- `commutator(expr1, expr2)` (pauli.py:192-204): both operands are converted first. -/
def pvCommutator (a b : PVal) : Except PyErr PExpr := do
  let a ← pvToExpr a
  let b ← pvToExpr b
  .ok (commutator a b)

/-- `is_commutable(expr1, expr2, eps)` (pauli.py:207-219). -/
def pvIsCommutable (a b : PVal) (eps : ℝ) : Except PyErr Bool := do
  let a ← pvToExpr a
  let b ← pvToExpr b
  .ok (isCommutable a b eps)

/-- `self.commutator(other)` (pauli.py:514-516, 846-848). Only Terms and Exprs have the method. -/
def pvCommutatorMethod : PVal → PVal → Except PyErr PExpr
  | .num _, _ => .error .attributeError
  | .pauli _, _ => .error .attributeError
  | .term t, b => pvCommutator (.term t) b
  | .expr e, b => pvCommutator (.expr e) b

/-- `self.is_commutable_with(other)` (pauli.py:518-520, 850-852), with the default `eps` of line 207. Only Terms and
Exprs have the method. -/
def pvIsCommutableWith : PVal → PVal → Except PyErr Bool
  | .num _, _ => .error .attributeError
  | .pauli _, _ => .error .attributeError
  | .term t, b => pvIsCommutable (.term t) b 0.00000001
  | .expr e, b => pvIsCommutable (.expr e) b 0.00000001

/-! ## Iteration -/

/-- `Term.n_iter()` (pauli.py:554-556). -/
def PTerm.nIter (t : PTerm) : List ℕ := t.ops.map (·.n)

/-- `max` of an iterator of integers; ValueError if it is empty. Library behaviour. -/
def pyMaxInt : List ℤ → Except PyErr ℤ
  | [] => .error .valueError
  | x :: xs => .ok (xs.foldl max x)

/-- `Term.max_n()` (pauli.py:558-565). -/
def PTerm.maxN (t : PTerm) : ℤ :=
  match pyMaxInt (t.nIter.map (fun n : ℕ => (n : ℤ))) with
  | .ok m => m
  | .error _ => -1

/-- `iter(expr)` (pauli.py:797-798). -/
def PExpr.iter (e : PExpr) : List PTerm := e.terms

/-- `Expr.max_n()` (pauli.py:824-832). -/
def PExpr.maxN (e : PExpr) : ℤ :=
  match pyMaxInt ((e.terms.filter (fun t => decide (t.ops ≠ []))).map PTerm.maxN) with
  | .ok m => m
  | .error _ => -1

/-- `Expr.coeffs()` (pauli.py:841-844). -/
def PExpr.coeffs (e : PExpr) : List ℂ := e.terms.map (·.coeff)

/-! ## Constructors -/

/-- `X(n)`, `Y(n)`, `Z(n)` (pauli.py:337-338). -/
def ctorCall (c : PLetter) (n : ℕ) : Pauli := .op ⟨c, n⟩

/-- `X[n]`, `Y[n]`, `Z[n]` (pauli.py:340-341). -/
def ctorGetItem (c : PLetter) (n : ℕ) : Pauli := .op ⟨c, n⟩

/-- `X.matrix`, `Y.matrix`, `Z.matrix` (pauli.py:343-346): `_matrix[name]` (pauli.py:42-47). -/
def ctorMatrix : PLetter → List (List ℂ)
  | .X => [[0, 1], [1, 0]]
  | .Y => [[0, -Complex.I], [Complex.I, 0]]
  | .Z => [[1, 0], [0, -1]]

/-! ## Copying -/

/-- The arguments with which a copy of an object is made. -/
inductive NewArgs where
  | none
  | index (n : ℕ)
  | pair (ops : List POp) (coeff : ℂ)
  | terms (ts : List PTerm)
  | unpacked (ts : List PTerm)

/-- The classes of the module. -/
inductive PClass where
  | letter (c : PLetter)
  | identity
  | term
  | expr

/-- `tuple(self)`: what `__getnewargs__` of a namedtuple returns (library behaviour). It calls `__iter__`, which Expr
overrides (pauli.py:797-798), so for an Expr these would be its terms. -/
def tupleNewArgs : PVal → Option NewArgs
  | .num _ => Option.none
  | .pauli .I => some .none
  | .pauli (.op o) => some (.index o.n)
  | .term t => some (.pair t.ops t.coeff)
  | .expr e => some (.unpacked e.iter)

/-- `v.__getnewargs__()`: of Expr `(self.terms,)` (pauli.py:817-818), of the other classes the namedtuple's. -/
def pvNewArgs : PVal → Option NewArgs
  | .expr e => some (.terms e.terms)
  | v => tupleNewArgs v

/-- `type(v)`. -/
def pvClass : PVal → Option PClass
  | .num _ => Option.none
  | .pauli .I => some .identity
  | .pauli (.op o) => some (.letter o.p)
  | .term _ => some .term
  | .expr _ => some .expr

/-- `cls.__new__(cls, *args)` of the namedtuples `_PauliTuple` (n), `_I` (), `_TermTuple` (ops, coeff) and `_ExprTuple`
(terms) (pauli.py:27, 352, 363, 646); TypeError for another number of arguments. The one case in which an Expr is
made from one unpacked term puts that term where the tuple of terms belongs; the result is not a well-formed value
and is left out. -/
def pyNew : PClass → NewArgs → Except PyErr PVal
  | .letter c, .index n => .ok (.pauli (.op ⟨c, n⟩))
  | .identity, .none => .ok (.pauli .I)
  | .term, .pair ops coeff => .ok (.term ⟨ops, coeff⟩)
  | .expr, .terms ts => .ok (.expr ⟨ts⟩)
  | _, _ => .error .typeError

/-- `copy.copy(v)`, and `pickle.loads(pickle.dumps(v))` with protocol 2 or higher: `__reduce_ex__` gives the class
and `__getnewargs__()` (library behaviour). Numbers are themselves. -/
def pvCopyWith (newargs : PVal → Option NewArgs) (v : PVal) : Except PyErr PVal :=
  match pvClass v, newargs v with
  | some c, some a => pyNew c a
  | _, _ => .ok v

/-- Copying as the module does it. -/
def pvCopy (v : PVal) : Except PyErr PVal := pvCopyWith pvNewArgs v

end

end Blueqat
