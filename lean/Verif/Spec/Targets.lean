import Verif.Slicing
import Verif.Spec.Slice

/-!
# Specification: the qubits a subscript denotes

`Atom`, `Item`, `Targets` are only the syntax of subscripts (an integer, a slice, a non-index value, tuples);
nothing else of the model is used.
-/

namespace Spec

open Blueqat (Atom Item Targets)

/-- The qubits denoted by one subscript element on an `n`-qubit register. -/
def AtomDenotes (n : Int) : Atom → List Int → Prop
  | .int i, L => L = [pyIndex n i]
  | .slice a b c, L => c ≠ some 0 ∧ Enumerates c (SliceSelects n a b c) L
  | .bad, _ => False

/-- The qubits denoted by a sequence of subscript elements: concatenation, in order. -/
def AtomsDenote (n : Int) : List Atom → List Int → Prop
  | [], L => L = []
  | a :: as, L => ∃ L₁ L₂, AtomDenotes n a L₁ ∧ AtomsDenote n as L₂ ∧ L = L₁ ++ L₂

/-- The qubits denoted by one side of a two-qubit subscript. -/
def ItemDenotes (n : Int) : Item → List Int → Prop
  | .atom a, L => AtomDenotes n a L
  | .tup as, L => AtomsDenote n as L

/-- The qubits denoted by a one-qubit-gate subscript: one element or a flat tuple. -/
def TargetsDenote (n : Int) : Targets → List Int → Prop
  | .one a, L => AtomDenotes n a L
  | .tup xs, L => ∃ as : List Atom, xs = as.map .atom ∧ AtomsDenote n as L

end Spec

namespace Spec

open Blueqat (Atom Item Targets)

/-- The control/target pairs denoted by a two-qubit subscript: both sides of a pair, matched position by
position, never a qubit with itself. -/
def PairsDenote (n : Int) (T : Targets) (ps : List (Int × Int)) : Prop :=
  ∃ a b cs ts, T = .tup [a, b] ∧ ItemDenotes n a cs ∧ ItemDenotes n b ts ∧
    cs.length = ts.length ∧ ps = cs.zip ts ∧ ∀ p ∈ ps, p.1 ≠ p.2

end Spec
