import Verif.Slicing
import Verif.Gate

/-!
# Specification: negative indices in subscripts
-/

namespace Spec

open Blueqat

/-- A negative index in range is replaced by the qubit it addresses, `-k` by `n - k`; nothing else changes. -/
def normAtom (n : ℕ) : Atom → Atom
  | .int i => if i < 0 ∧ -(n : ℤ) ≤ i then .int (i + n) else .int i
  | a => a

/-- `normAtom` inside a tuple element. -/
def normItem (n : ℕ) : Item → Item
  | .atom a => .atom (normAtom n a)
  | .tup as => .tup (as.map (normAtom n))

/-- `normAtom` everywhere in a subscript. -/
def normTargets (n : ℕ) : Targets → Targets
  | .one a => .one (normAtom n a)
  | .tup xs => .tup (xs.map (normItem n))

/-- The same gate object with another subscript. -/
def retarget : Gate → Targets → Gate
  | .g1 k _, T => .g1 k T
  | .g2 k _, T => .g2 k T
  | .g3 k _, T => .g3 k T
  | .measure _, T => .measure T
  | .reset _, T => .reset T

/-- The index `i` occurs in the subscript. -/
def Mentions (i : ℤ) : Targets → Prop
  | .one a => a = .int i
  | .tup xs => ∃ x ∈ xs, x = .atom (.int i) ∨ ∃ as, x = .tup as ∧ Atom.int i ∈ as

end Spec
