import Mathlib.Data.Real.Basic
import Verif.Spec.Qasm

/-!
# Specification: reading the Python expression `Circuit(n).gate(numbers)[subscript]. ...`

The fragment of Python's grammar that consists of a call of `Circuit` with a decimal number and of attributes that are
called with numbers (or not called) and then subscripted by integers and slices. Nothing of the model is used
(`splitChar` is the character splitter of `Spec.Qasm`).
-/

namespace Spec

/-- One element of a subscript. -/
inductive PySub where
  | int (i : ℤ)
  | slice (start stop step : Option ℤ)

/-- `.name(args)[subs]`. -/
structure PyCall where
  name : String
  args : List ℝ
  subs : List PySub

/-- A decimal integer, possibly negative. -/
def readInt (s : List Char) : Option ℤ :=
  match s with
  | '-' :: ds => (String.ofList ds).toNat?.map fun k : ℕ => -(k : ℤ)
  | ds => (String.ofList ds).toNat?.map fun k : ℕ => (k : ℤ)

/-- A bound of a slice: nothing or an integer. -/
def readBound (s : List Char) : Option (Option ℤ) :=
  if s = [] then some none else (readInt s).map some

/-- An integer, `a:b` or `a:b:c`. -/
def readSub (s : List Char) : Option PySub :=
  match splitChar ':' s with
  | [a] => (readInt a).map .int
  | [a, b] =>
    match readBound a, readBound b with
    | some a, some b => some (.slice a b none)
    | _, _ => none
  | [a, b, c] =>
    match readBound a, readBound b, readBound c with
    | some a, some b, some c => some (.slice a b c)
    | _, _, _ => none
  | _ => none

/-- Texts separated by commas, blanks after a comma being dropped. -/
def commaList (s : List Char) : List (List Char) := (splitChar ',' s).map fun p => p.dropWhile (· = ' ')

/-- `[subs]` and the text after it. -/
def readSubs (s : List Char) : Option (List PySub × List Char) :=
  match s with
  | '[' :: s =>
    match s.dropWhile (· ≠ ']') with
    | ']' :: rest => ((commaList (s.takeWhile (· ≠ ']'))).mapM readSub).map fun subs => (subs, rest)
    | _ => none
  | _ => none

/-- `(numbers)` or nothing, and the text after it. -/
def readArgs (read : String → Option ℝ) (s : List Char) : Option (List ℝ × List Char) :=
  match s with
  | '(' :: s =>
    match s.dropWhile (· ≠ ')') with
    | ')' :: rest =>
      ((commaList (s.takeWhile (· ≠ ')'))).mapM fun p => read (String.ofList p)).map fun ps => (ps, rest)
    | _ => none
  | s => some ([], s)

/-- `name(args)[subs]` and the text after it. -/
def readCall (read : String → Option ℝ) (s : List Char) : Option (PyCall × List Char) :=
  match readArgs read (s.dropWhile Char.isAlphanum) with
  | none => none
  | some (args, s1) =>
    match readSubs s1 with
    | none => none
    | some (subs, s2) => some (⟨String.ofList (s.takeWhile Char.isAlphanum), args, subs⟩, s2)

/-- A sequence of `.name(args)[subs]`; the first argument bounds their number. -/
def readCalls (read : String → Option ℝ) : ℕ → List Char → Option (List PyCall)
  | _, [] => some []
  | fuel + 1, '.' :: s =>
    match readCall read s with
    | none => none
    | some (c, rest) => (readCalls read fuel rest).map fun cs => c :: cs
  | _, _ => none

/-- The whole expression: the argument of `Circuit` and the calls. -/
def readCircuit (read : String → Option ℝ) (s : List Char) : Option (ℕ × List PyCall) :=
  if "Circuit(".toList.isPrefixOf s then
    let s := s.drop "Circuit(".toList.length
    match (String.ofList (s.takeWhile Char.isDigit)).toNat?, s.dropWhile Char.isDigit with
    | some n, ')' :: rest => (readCalls read rest.length rest).map fun cs => (n, cs)
    | _, _ => none
  else none

/-- `fmt` writes the numbers of `S` as `read` reads them, without blanks, commas and closing parentheses, as Python's
`str` of a float does. -/
structure PyNumbers (fmt : ℝ → String) (read : String → Option ℝ) (S : Set ℝ) : Prop where
  back : ∀ x ∈ S, read (fmt x) = some x
  clean : ∀ x ∈ S, ∀ c ∈ (fmt x).toList, c ≠ ' ' ∧ c ≠ ',' ∧ c ≠ ')'

/-- The subscript Python passes to `__getitem__`: one element alone, several as a tuple. -/
def PySub.atom : PySub → Blueqat.Atom
  | .int i => .int i
  | .slice a b c => .slice a b c

def subscript : List PySub → Blueqat.Targets
  | [s] => .one s.atom
  | ss => .tup (ss.map fun s => .atom s.atom)

/-- The same subscript, except that a tuple of one element may have become the element. -/
inductive SameSub : Blueqat.Targets → Blueqat.Targets → Prop
  | refl (T : Blueqat.Targets) : SameSub T T
  | single (a : Blueqat.Atom) : SameSub (.tup [.atom a]) (.one a)

/-- The same gate with the same numbers on the same subscript. -/
inductive SameGate : Blueqat.Gate → Blueqat.Gate → Prop
  | g1 (k : Blueqat.G1) {T T' : Blueqat.Targets} : SameSub T T' → SameGate (.g1 k T) (.g1 k T')
  | g2 (k : Blueqat.G2) {T T' : Blueqat.Targets} : SameSub T T' → SameGate (.g2 k T) (.g2 k T')
  | g3 (k : Blueqat.G3) {T T' : Blueqat.Targets} : SameSub T T' → SameGate (.g3 k T) (.g3 k T')
  | measure {T T' : Blueqat.Targets} : SameSub T T' → SameGate (.measure T) (.measure T')
  | reset {T T' : Blueqat.Targets} : SameSub T T' → SameGate (.reset T) (.reset T')

/-- The numbers written for a gate. -/
def writtenNumbers : Blueqat.Gate → List ℝ
  | .g1 k _ => angles1 k
  | .g2 k _ => angles2 k
  | _ => []

end Spec
