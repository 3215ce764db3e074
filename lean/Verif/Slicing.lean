import Verif.Py
import Mathlib.Tactic.Linarith
import Mathlib.Tactic.Ring
import Mathlib.Tactic.Tauto
import Mathlib.Data.Int.Order.Basic
import Mathlib.Algebra.Ring.Divisibility.Basic

/-!
# Gate targets: slices, pairs and largest index (blueqat/gate.py:635-704)
-/

namespace Blueqat

/-- One element of a subscript: an integer, a slice, or a value that has no `__index__`
(blueqat/gate.py:637,650-652). Simplification: slice members are `None` or integers. -/
inductive Atom where
  | int (i : Int)
  | slice (start stop step : Option Int)
  | bad
  deriving DecidableEq, Repr

/-- One element of a subscript tuple; a tuple inside a tuple is what `cx[(0, 1), (2, 3)]` passes
(blueqat/gate.py:660,673-674). A tuple nested two levels deep has no `__index__`, so it is `Atom.bad`. -/
inductive Item where
  | atom (a : Atom)
  | tup (as : List Atom)
  deriving DecidableEq, Repr

/-- What `gate.targets` can hold (blueqat/gate.py:27): a single subscript or a tuple. -/
inductive Targets where
  | one (a : Atom)
  | tup (xs : List Item)
  deriving DecidableEq, Repr

/-- An `Item` used as the whole `targets` of a gate (e.g. `HGate(t)` at blueqat/gate.py:578). -/
def Item.toTargets : Item → Targets
  | .atom a => .one a
  | .tup as => .tup (as.map .atom)

/-- A plain integer used as `targets` (e.g. `RZGate(t, ...)` at blueqat/gate.py:197). -/
def Targets.ofInt (i : Int) : Targets := .one (.int i)

/-- A pair of plain integers used as `targets` (e.g. `CXGate((c, t))` at blueqat/gate.py:324). -/
def Targets.ofPair (c t : Int) : Targets := .tup [.atom (.int c), .atom (.int t)]

/-- `slice.indices(length)`, the CPython builtin called at blueqat/gate.py:638. -/
def sliceIndices (start stop step : Option Int) (length : Int) : Except PyErr (Int × Int × Int) :=
  let k := step.getD 1
  if k = 0 then .error .valueError
  else
    let lower := if k < 0 then -1 else 0
    let upper := if k < 0 then length - 1 else length
    let clip (x : Int) : Int :=
      if x < 0 then max (x + length) lower else min x upper
    let s := match start with
      | none => if k < 0 then upper else lower
      | some x => clip x
    let e := match stop with
      | none => if k < 0 then lower else upper
      | some x => clip x
    .ok (s, e, k)

/-- `while i < stop: yield i; i += step` (blueqat/gate.py:641-643); only entered with `step > 0`. -/
def loopUp (i stop step : Int) : List Int :=
  if _h : 0 < step ∧ i < stop then i :: loopUp (i + step) stop step else []
termination_by (stop - i).toNat
decreasing_by omega

/-- `while i > stop: yield i; i += step` (blueqat/gate.py:645-647); only entered with `step < 0`
(`slice.indices` never returns step 0). -/
def loopDown (i stop step : Int) : List Int :=
  if _h : step < 0 ∧ i > stop then i :: loopDown (i + step) stop step else []
termination_by (i - stop).toNat
decreasing_by omega

/-- `slicing_singlevalue(arg, length)` (blueqat/gate.py:635-655). -/
def slicingSinglevalue (arg : Atom) (length : Int) : Gen Int :=
  match arg with
  | .slice a b c =>
    match sliceIndices a b c length with
    | .error e => ⟨[], some e⟩
    | .ok (start, stop, step) =>
      if step > 0 then ⟨loopUp start stop step, none⟩ else ⟨loopDown start stop step, none⟩
  | .int i => if i < 0 then ⟨[i + length], none⟩ else ⟨[i], none⟩
  | .bad => ⟨[], some .typeError⟩

/-- `slicing_singlevalue` applied to a tuple element; a tuple has no `__index__`
(blueqat/gate.py:649-652). -/
def slicingItemAsSingle (arg : Item) (length : Int) : Gen Int :=
  match arg with
  | .atom a => slicingSinglevalue a length
  | .tup _ => ⟨[], some .typeError⟩

/-- `slicing(args, length)` (blueqat/gate.py:658-664) for the whole `targets` of a gate. -/
def slicing (args : Targets) (length : Int) : Gen Int :=
  match args with
  | .tup xs => Gen.forEach (fun x => slicingItemAsSingle x length) xs
  | .one a => slicingSinglevalue a length

/-- `slicing(args[k], length)` (blueqat/gate.py:673-674): one side of a two-qubit subscript. -/
def slicingItem (arg : Item) (length : Int) : Gen Int :=
  match arg with
  | .tup as => Gen.forEach (fun a => slicingSinglevalue a length) as
  | .atom a => slicingSinglevalue a length

/-- `qubit_pairs(args, length)` (blueqat/gate.py:667-680). -/
def qubitPairs (args : Targets) (length : Int) : Except PyErr (List (Int × Int)) :=
  match args with
  | .one _ => .error .valueError
  | .tup [a0, a1] =>
    match (slicingItem a0 length).toList with
    | .error e => .error e
    | .ok controls =>
      match (slicingItem a1 length).toList with
      | .error e => .error e
      | .ok targets =>
        if controls.length ≠ targets.length then .error .valueError
        else if (controls.zip targets).any (fun p => p.1 == p.2) then .error .valueError
        else .ok (controls.zip targets)
  | .tup _ => .error .valueError

/-- `_maximum_idx_single(idx)` (blueqat/gate.py:685-695). -/
def maximumIdxSingle : Item → Except PyErr Int
  | .atom (.slice start stop _) => .ok (max (start.getD (-1)) (stop.getD 0 - 1))
  | .atom (.int i) => .ok i
  | .atom .bad => .error .attributeError
  | .tup _ => .error .attributeError

/-- `max((_maximum_idx_single(i) for i in indices), default=-1)` (blueqat/gate.py:697):
`none` is "no element seen yet". -/
def maxOver : List Item → Option Int → Except PyErr Int
  | [], acc => .ok (acc.getD (-1))
  | x :: xs, acc =>
    match maximumIdxSingle x with
    | .error e => .error e
    | .ok v => maxOver xs (some (match acc with | none => v | some a => max a v))

/-- `get_maximum_index(indices)` (blueqat/gate.py:683-699). -/
def getMaximumIndex : Targets → Except PyErr Int
  | .tup xs => maxOver xs none
  | .one a => maximumIdxSingle (.atom a)

end Blueqat
