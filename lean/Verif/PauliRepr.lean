import Verif.Pauli
import Verif.Qasm

/-!
# The text and the hash of Pauli operators, terms and expressions (blueqat/pauli.py)

Simplification: the text of a coefficient (`str(self.coeff)`) is a parameter `fmt` of its value, so an int, a float and
a complex object of the same value print alike.
-/

namespace Blueqat

noncomputable section

/-- `_PauliImpl.__repr__` (pauli.py:302-305). -/
def Pauli.repr : Pauli → String
  | .I => "I"
  | .op o => o.repr

/-- `Term.__repr__` (pauli.py:484-495). The elements of `ops` print `op.op + "[" + repr(op.n) + "]"` (line 494), which
is the text of line 305. -/
def PTerm.repr (fmt : ℂ → String) (t : PTerm) : String :=
  if t.coeff = 0 then "0*I"
  else
    let sCoeff := if t.coeff = -1 then "-" else fmt t.coeff ++ "*"
    let sOps := if t.ops = [] then "I" else pyJoin "*" (t.ops.map POp.repr)
    sCoeff ++ sOps

/-- One turn of the loop of `Expr.__repr__` (pauli.py:804-813): the texts appended to `s_terms`. A text is never empty,
so `s[0]` does not fail. -/
def exprReprStep (s : String) : List String :=
  match s.toList with
  | '+' :: r => ["+", String.ofList r]
  | '-' :: r => ["-", String.ofList r]
  | _ => ["+", s]

/-- `Expr.__repr__` (pauli.py:800-814). -/
def PExpr.repr (fmt : ℂ → String) (e : PExpr) : String :=
  match e.terms with
  | [] => "0*I+0"
  | t :: ts => pyJoin " " (t.repr fmt :: ts.flatMap fun t => exprReprStep (t.repr fmt))

/-- `_PauliImpl.__hash__` (pauli.py:245-246). `h` is Python's `hash` of a pair of a letter and an index; `_n(I)` has no
attribute `n`. -/
def Pauli.hash (h : PLetter → ℕ → ℤ) : Pauli → Except PyErr ℤ
  | .I => .error .attributeError
  | .op o => .ok (h o.p o.n)

/-- `hash(v)` for a Pauli object, a term or an expression. `Term` and `Expr` define `__eq__` (pauli.py:497, 688) but not
`__hash__`, so Python makes them unhashable. The hash of a number is not modelled. -/
def pvHash (h : PLetter → ℕ → ℤ) : PVal → Option (Except PyErr ℤ)
  | .num _ => none
  | .pauli p => some (p.hash h)
  | .term _ => some (.error .typeError)
  | .expr _ => some (.error .typeError)

end

end Blueqat
