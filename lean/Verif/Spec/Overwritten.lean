import Verif.Spec.Pauli

/-!
# Specification: the part of an expression that `+` and `-` lose

An `Expr` can hold several terms with the same operators. `Expr.__add__` puts the terms of the left operand into a dict, so of equal
words only the last one is kept.
-/

namespace Spec

open Blueqat

/-- The terms after which the same operators occur again. -/
def overwritten : List PTerm → List PTerm
  | [] => []
  | t :: ts => if t.ops ∈ ts.map PTerm.ops then t :: overwritten ts else overwritten ts

noncomputable section

/-- What `+` and `-` lose of their left operand: of an expression, the terms with a later term of the same operators (terms with
coefficient 0 do not count); of any other value nothing. -/
def lostOp : PVal → Operator
  | .expr e => ((overwritten (e.terms.filter (fun t => decide (t.coeff ≠ 0)))).map termOp).sum
  | _ => 0

end

end Spec
