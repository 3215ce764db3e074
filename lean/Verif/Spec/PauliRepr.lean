import Verif.Spec.Pauli
import Verif.Spec.Qasm

/-!
# Specification: reading sums of products of numbers and Pauli operators as Python does

The fragment of Python's grammar that consists of sums and differences of products of numbers, `I`, `X[n]`, `Y[n]` and
`Z[n]`, the first factor of a product possibly with a minus sign (which binds tighter than `*`). `lit` reads the
unsigned literals of numbers.
-/

namespace Spec

open Blueqat

noncomputable section

/-- `X`, `Y`, `Z`. -/
def readLetter : Char → Option PLetter
  | 'X' => some .X
  | 'Y' => some .Y
  | 'Z' => some .Z
  | _ => none

/-- `I`, a letter with an index in brackets, or a number. -/
def readFactor (lit : List Char → Option PyNum) (s : List Char) : Option Formula :=
  match s with
  | ['I'] => some (.pauli .I)
  | c :: '[' :: r =>
    match readLetter c, (String.ofList r.dropLast).toNat? with
    | some p, some n => if r.getLast? = some ']' then some (.pauli (.op ⟨p, n⟩)) else none
    | _, _ => none
  | s => (lit s).map .num

/-- `a * b * c` is `(a * b) * c`, and `-a * b` is `(-a) * b`. -/
def readProduct (lit : List Char → Option PyNum) (s : List Char) : Option Formula :=
  match s with
  | '-' :: s =>
    match (splitChar '*' s).mapM (readFactor lit) with
    | some (f :: fs) => some (fs.foldl .mul (.neg f))
    | _ => none
  | s =>
    match (splitChar '*' s).mapM (readFactor lit) with
    | some (f :: fs) => some (fs.foldl .mul f)
    | _ => none

/-- `acc + a - b ...`, from left to right. -/
def readSum (lit : List Char → Option PyNum) : Formula → List (List Char) → Option Formula
  | acc, [] => some acc
  | acc, op :: p :: rest =>
    match readProduct lit p with
    | none => none
    | some q =>
      if op = ['+'] then readSum lit (.add acc q) rest
      else if op = ['-'] then readSum lit (.sub acc q) rest
      else none
  | _, _ => none

/-- Blanks around a plus sign are optional. (A plus sign that follows another character belongs to a number, such as
`1e+20` or `(1+2j)`.) -/
def spaced : List Char → List Char
  | [] => []
  | [a] => [a]
  | a :: b :: r => if b = '+' ∧ (a = 'I' ∨ a = ']') then a :: ' ' :: '+' :: ' ' :: spaced r else a :: spaced (b :: r)

/-- The formula a text stands for. -/
def readPauli (lit : List Char → Option PyNum) (s : String) : Option Formula :=
  match splitChar ' ' (spaced s.toList) with
  | p :: rest =>
    match readProduct lit p with
    | none => none
    | some q => readSum lit q rest
  | [] => none

/-- Literals have no sign in front and none of the characters that separate factors and terms; `0` is one of them. -/
structure PlainLit (lit : List Char → Option PyNum) : Prop where
  head : ∀ s x, lit s = some x → s ≠ [] ∧ s.head? ≠ some '-' ∧ s.head? ≠ some '+'
  chars : ∀ s x, lit s = some x → ∀ c ∈ s, c ≠ ' ' ∧ c ≠ '*' ∧ c ≠ 'I' ∧ c ≠ '[' ∧ c ≠ ']'
  zero : lit ['0'] = some (.real 0)

/-- The text of a number is its literal, or a minus sign and the literal of the opposite number. -/
def NumText (lit : List Char → Option PyNum) (s : String) (z : ℂ) : Prop :=
  (∃ x, lit s.toList = some x ∧ x.val = z) ∨ ∃ u x, s.toList = '-' :: u ∧ lit u = some x ∧ -x.val = z

end

end Spec
