/-!
# Python values used throughout the model

Exceptions are values of `PyErr`; a call that may raise returns `Except PyErr α`.
-/

namespace Blueqat

/-- The Python exception classes the modelled code can raise
(builtin classes; raised e.g. at blueqat/gate.py:652,670,672,676,679 and blueqat/circuit.py:102,121).
Simplification: only the class is kept, not the message. `generatorsNeeded` is
sympy's class. `undefinedBehaviour` is not an exception: it marks the
point where compiled code (blueqat/backends/_numba_backend_impl.py) would access memory outside an array or shift
by a negative count, after which the model says nothing. -/
inductive PyErr where
  | valueError
  | typeError
  | attributeError
  | indexError
  | keyError
  | zeroDivisionError
  | notImplementedError
  | assertionError
  | recursionError
  | keyboardInterrupt
  | runtimeError
  | unboundLocalError
  | importError
  | generatorsNeeded
  | undefinedBehaviour
  deriving DecidableEq, Repr

/-- A Python generator run to its end: the values it yielded, and the exception that stopped it, if any
(models the generators of blueqat/gate.py:635-664). -/
structure Gen (α : Type) where
  vals : List α
  err : Option PyErr := none
  deriving Repr, DecidableEq

namespace Gen

/-- `list(gen)` (blueqat/gate.py:673-674). -/
def toList {α : Type} (g : Gen α) : Except PyErr (List α) :=
  match g.err with
  | none => .ok g.vals
  | some e => .error e

/-- `yield from a` followed by `yield from b` (blueqat/gate.py:661-662). -/
def append {α : Type} (a b : Gen α) : Gen α :=
  match a.err with
  | none => ⟨a.vals ++ b.vals, b.err⟩
  | some e => ⟨a.vals, some e⟩

/-- `for arg in args: yield from f(arg)` (blueqat/gate.py:661-662). -/
def forEach {α β : Type} (f : α → Gen β) : List α → Gen β
  | [] => ⟨[], none⟩
  | x :: xs => (f x).append (forEach f xs)

end Gen

end Blueqat
