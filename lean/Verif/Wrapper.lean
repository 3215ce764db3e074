import Verif.OpsNames

/-!
# Gate wrappers as objects (blueqat/circuit.py:269-299, blueqat/experimental/operations.py:74-103)

`circuit.name` is an object of its own: a program can keep it, call it and subscript it any number of times.
Simplification: the initial `GATE_SET`, and only names that are no attribute, macro or backend runner, as in `callGate`.
-/

namespace Blueqat

/-- A `_GateWrapper` (blueqat/circuit.py:270-276). `circ` is the number of `self.circuit`, `cls` the `lowername` of `self.gate`. -/
structure GateWrapper where
  circ : ℕ
  target : Option Targets
  name : String
  cls : String
  call : PyCall

/-- The fields of a circuit that a wrapper changes (blueqat/circuit.py:285,287). -/
structure WrapCirc where
  n : ℕ
  ops : List GateObj

/-- The circuits of a program and the wrappers it has fetched, in order. -/
structure WrapWorld where
  circs : ℕ → WrapCirc
  wraps : List GateWrapper

/-- What a program does with wrappers: `circuit.name`, `w(*args, **kwargs)`, `w[T]`. -/
inductive WrapCmd where
  | attr (i : ℕ) (name : String)
  | call (k : ℕ) (c : PyCall)
  | item (k : ℕ) (T : Targets)

noncomputable section

/-- `_GateWrapper(self, name, GATE_SET[name])` (blueqat/circuit.py:113-114,270-276). -/
def GateWrapper.init (i : ℕ) (name cls : String) : GateWrapper := ⟨i, Option.none, name, cls, ⟨[], []⟩⟩

/-- `__call__` (blueqat/circuit.py:278-281). -/
def GateWrapper.setCall (g : GateWrapper) (c : PyCall) : GateWrapper := { g with call := c }

/-- `__getitem__` (blueqat/circuit.py:283-288) on the wrapper's circuit: the constructor runs first, then the gate is stored, and
then the maximum index is computed. -/
def GateWrapper.getItem (g : GateWrapper) (q : WrapCirc) (T : Targets) : WrapCirc × Option PyErr :=
  match makeGate g.cls T g.call with
  | .error e => (q, some e)
  | .ok o =>
    match getMaximumIndex T with
    | .error e => ({ q with ops := q.ops ++ [o] }, some e)
    | .ok mx => (⟨newQubits mx q.n, q.ops ++ [o]⟩, Option.none)

/-- One action, and the exception it raises (blueqat/circuit.py:112-122,278-288). `self.target` is set before anything can raise
(line 284). A wrapper that was never fetched is a name that is not bound. -/
def WrapWorld.step (w : WrapWorld) : WrapCmd → WrapWorld × Option PyErr
  | .attr i name =>
    match gateClass name with
    | Option.none => (w, some .attributeError)
    | some cls => ({ w with wraps := w.wraps ++ [GateWrapper.init i name cls] }, Option.none)
  | .call k c =>
    match w.wraps[k]? with
    | Option.none => (w, some .unboundLocalError)
    | some g => ({ w with wraps := w.wraps.set k (g.setCall c) }, Option.none)
  | .item k T =>
    match w.wraps[k]? with
    | Option.none => (w, some .unboundLocalError)
    | some g =>
      let r := g.getItem (w.circs g.circ) T
      (⟨fun j => if j = g.circ then r.1 else w.circs j, w.wraps.set k { g with target := some T }⟩, r.2)

/-- A program; exceptions are caught between the actions. -/
def WrapWorld.exec (w : WrapWorld) (h : List WrapCmd) : WrapWorld := h.foldl (fun w c => (w.step c).1) w

/-! ## Text -/

/-- `str` of a tuple whose elements have the given `repr`. Library behaviour: a tuple of one element ends with a comma. -/
def pyTupleStr : List String → String
  | [a] => "(" ++ a ++ ",)"
  | l => "(" ++ pyJoin ", " l ++ ")"

/-- `str` of a dictionary with string keys. Library behaviour; `rep` is `repr`. -/
def pyDictStr (rep : PyArg → String) (d : PyDict String PyArg) : String :=
  "{" ++ pyJoin ", " (d.map (fun p => rep (.str p.1) ++ ": " ++ rep p.2)) ++ "}"

/-- `repr` of a subscript element; `bad` is that of a value which is neither integer nor slice. Library behaviour. -/
def pyAtomStr (bad : String) : Atom → String
  | .int i => toString i
  | .slice a b c => "slice(" ++ optStr a ++ ", " ++ optStr b ++ ", " ++ optStr c ++ ")"
  | .bad => bad

/-- `str(self.target)` (blueqat/circuit.py:299). Library behaviour. -/
def pyTargetStr (bad : String) : Option Targets → String
  | Option.none => "None"
  | some (.one a) => pyAtomStr bad a
  | some (.tup xs) => pyTupleStr (xs.map fun x => match x with
    | .atom a => pyAtomStr bad a
    | .tup as => pyTupleStr (as.map (pyAtomStr bad)))

/-- `s[:-1]`. Library behaviour. -/
def dropLastChar (s : String) : String := String.ofList s.toList.dropLast

/-- `args_str` (blueqat/circuit.py:291-298; the same text at blueqat/experimental/operations.py:95-102). -/
def wrapperArgStr (rep : PyArg → String) (c : PyCall) : String :=
  if c.args ≠ [] then
    if c.kw ≠ [] then dropLastChar (pyTupleStr (c.args.map rep)) ++ ", kwargs=" ++ pyDictStr rep c.kw ++ ")"
    else pyTupleStr (c.args.map rep)
  else if c.kw ≠ [] then "(kwargs=" ++ pyDictStr rep c.kw ++ ")"
  else ""

/-- `_GateWrapper.__str__` (blueqat/circuit.py:290-299; the same at blueqat/experimental/operations.py:94-103). -/
def wrapperStr (rep : PyArg → String) (bad : String) (name : String) (target : Option Targets) (c : PyCall) : String :=
  name ++ wrapperArgStr rep c ++ " " ++ pyTargetStr bad target

/-- `str(w)` (blueqat/circuit.py:290-299). -/
def GateWrapper.str (rep : PyArg → String) (bad : String) (g : GateWrapper) : String :=
  wrapperStr rep bad g.name g.target g.call

/-! ## Wrappers of `Ops` -/

/-- A `_GateWrapper` of an `Ops` value (blueqat/experimental/operations.py:75-81); the value itself cannot change. -/
structure OpsWrapper where
  ops : ℕ × List GateObj
  target : Option Targets
  name : String
  call : PyCall

/-- What a program does with one such wrapper. -/
inductive OpsWrapCmd where
  | call (c : PyCall)
  | item (T : Targets)

/-- `_GateWrapper(self, name, GATE_SET[name])` (blueqat/experimental/operations.py:54-56,75-81). -/
def OpsWrapper.init (ops : ℕ × List GateObj) (name : String) : OpsWrapper := ⟨ops, Option.none, name, ⟨[], []⟩⟩

/-- `__call__` and `__getitem__` (blueqat/experimental/operations.py:83-92): the wrapper afterwards, and what the subscript
returns. -/
def OpsWrapper.step (g : OpsWrapper) : OpsWrapCmd → OpsWrapper × Option (Except PyErr (ℕ × List GateObj))
  | .call c => ({ g with call := c }, Option.none)
  | .item T =>
    ({ g with target := some T },
      some (match opsCall g.ops.1 g.name g.call T with
        | .error e => .error e
        | .ok (n, o) => .ok (n, g.ops.2 ++ [o])))

/-- `str(w)` (blueqat/experimental/operations.py:94-103). -/
def OpsWrapper.str (rep : PyArg → String) (bad : String) (g : OpsWrapper) : String :=
  wrapperStr rep bad g.name g.target g.call

/-- Any number of uses of one wrapper. -/
def OpsWrapper.exec (g : OpsWrapper) (h : List OpsWrapCmd) : OpsWrapper := h.foldl (fun g c => (g.step c).1) g

end

end Blueqat
