import Verif.Repr
import Verif.NpRun
import Verif.Numba
import Verif.Qasm
import Verif.Sympy

/-!
# Arguments of calls: gate constructors and `run` (blueqat/circuit.py:187-217,230-236,278-288, blueqat/gate.py)

Positional and keyword arguments as Python passes them. Simplifications: values are None, integers, booleans, floats,
strings and tuples of such values; the keyword `dtype` of the numba backend keeps its default.
-/

namespace Blueqat

/-- A Python value given as an argument. -/
inductive PyArg where
  | none
  | int (i : ℤ)
  | bool (b : Bool)
  | float (x : ℝ)
  | str (s : String)
  | tup (l : List PyArg)

/-- The arguments `*args, **kwargs` of a call. -/
structure PyCall where
  args : List PyArg
  kw : PyDict String PyArg

noncomputable section

open Classical in
/-- `bool(value)`. Library behaviour. -/
def PyArg.truthy : PyArg → Bool
  | .none => false
  | .int i => decide (i ≠ 0)
  | .bool b => b
  | .float x => decide (x ≠ 0)
  | .str s => decide (s ≠ "")
  | .tup l => !l.isEmpty

/-- Binding of the arguments to the parameters of a function (names with defaults), left to right. Python language reference,
"Calls": TypeError for too many positional arguments, for a parameter given twice and for a missing one. Keywords of other
names are collected by `**kwargs`, see `PyCall.rest`. -/
def bindParams (kw : PyDict String PyArg) : List (String × Option PyArg) → List PyArg → Except PyErr (List PyArg)
  | [], [] => .ok []
  | [], _ :: _ => .error .typeError
  | (p, _) :: ps, a :: as =>
    if kw.has p = true then .error .typeError
    else
      match bindParams kw ps as with
      | .error e => .error e
      | .ok vs => .ok (a :: vs)
  | (p, d) :: ps, [] =>
    match kw.get p with
    | some v =>
      match bindParams kw ps [] with
      | .error e => .error e
      | .ok vs => .ok (v :: vs)
    | Option.none =>
      match d with
      | some v =>
        match bindParams kw ps [] with
        | .error e => .error e
        | .ok vs => .ok (v :: vs)
      | Option.none => .error .typeError

/-- The keyword arguments that are left for `**kwargs`. -/
def PyCall.rest (c : PyCall) (names : List String) : PyDict String PyArg := c.kw.filter (fun p => decide (p.1 ∉ names))

/-! ## Gates -/

/-- A gate object as constructed, before its parameters are used (blueqat/gate.py:22-27). `cls` is the `lowername`. -/
structure GateObj where
  cls : String
  params : PyArg
  kwargs : PyDict String PyArg
  targets : Targets

/-- The class of a name in `GATE_SET`, as its `lowername` (blueqat/circuit.py:30-71). -/
def gateClass : String → Option String
  | "i" => some "i"
  | "x" => some "x"
  | "y" => some "y"
  | "z" => some "z"
  | "h" => some "h"
  | "t" => some "t"
  | "tdg" => some "tdg"
  | "s" => some "s"
  | "sdg" => some "sdg"
  | "cz" => some "cz"
  | "cx" => some "cx"
  | "cnot" => some "cx"
  | "cy" => some "cy"
  | "ch" => some "ch"
  | "rx" => some "rx"
  | "ry" => some "ry"
  | "rz" => some "rz"
  | "r" => some "phase"
  | "phase" => some "phase"
  | "crx" => some "crx"
  | "cry" => some "cry"
  | "crz" => some "crz"
  | "cr" => some "cphase"
  | "cphase" => some "cphase"
  | "u1" => some "u1"
  | "u2" => some "u2"
  | "u3" => some "u3"
  | "cu1" => some "cu1"
  | "cu2" => some "cu2"
  | "cu3" => some "cu3"
  | "swap" => some "swap"
  | "rxx" => some "rxx"
  | "ryy" => some "ryy"
  | "rzz" => some "rzz"
  | "ccx" => some "ccx"
  | "toffoli" => some "ccx"
  | "cswap" => some "cswap"
  | "reset" => some "reset"
  | "measure" => some "measure"
  | "m" => some "measure"
  | _ => Option.none

/-- The parameters after `targets` of the class's own `__init__`; `none`: the class has only `Gate.__init__`
(blueqat/gate.py:22,144,156,168,188,254,270,287,348,368,388,408,426,448,470,509,531,548). -/
def initParams : String → Option (List String)
  | "rx" => some ["theta"]
  | "ry" => some ["theta"]
  | "rz" => some ["theta"]
  | "phase" => some ["theta"]
  | "u1" => some ["lambd"]
  | "u2" => some ["phi", "lambd"]
  | "u3" => some ["theta", "phi", "lambd"]
  | "crx" => some ["theta"]
  | "cry" => some ["theta"]
  | "crz" => some ["theta"]
  | "cphase" => some ["theta"]
  | "rxx" => some ["theta"]
  | "ryy" => some ["theta"]
  | "rzz" => some ["theta"]
  | "cu1" => some ["lambd"]
  | "cu2" => some ["phi", "lambd"]
  | "cu3" => some ["theta", "phi", "lambd"]
  | _ => Option.none

/-- `self.gate(self.target, *self.args, **self.kwargs)` (blueqat/circuit.py:285). `self` and `targets` are already given. A class
with its own `__init__` passes the remaining keywords to `Gate.__init__(targets, params, **kwargs)` with `params` already given
(e.g. blueqat/gate.py:144-146); the others are constructed by `Gate.__init__(self, targets, params=(), **kwargs)` (line 22). -/
def makeGate (cls : String) (T : Targets) (c : PyCall) : Except PyErr GateObj :=
  if c.kw.has "self" = true ∨ c.kw.has "targets" = true then .error .typeError
  else
    match initParams cls with
    | some names =>
      match bindParams c.kw (names.map (fun p => (p, Option.none))) c.args with
      | .error e => .error e
      | .ok vs =>
        if (PyDict.has (c.rest names) "params") = true then .error .typeError
        else .ok ⟨cls, .tup vs, c.rest names, T⟩
    | Option.none =>
      match bindParams c.kw [("params", some (.tup []))] c.args with
      | .error e => .error e
      | .ok vs => .ok ⟨cls, vs.headD (.tup []), c.rest ["params"], T⟩

/-- `circuit.name(*args, **kwargs)[T]` up to the construction of the gate (blueqat/circuit.py:112-122,278-285) with the initial
`GATE_SET`, for a name that is no attribute, macro or backend runner. -/
def callGate (name : String) (c : PyCall) (T : Targets) : Except PyErr GateObj :=
  match gateClass name with
  | Option.none => .error .attributeError
  | some cls => makeGate cls T c

/-- The number a gate parameter is. -/
def PyArg.toReal : PyArg → Option ℝ
  | .float x => some x
  | .int i => some (i : ℝ)
  | _ => Option.none

/-- The gate of `Verif.Gate` that the object stands for: classes with their own `__init__` keep their parameters as attributes
(blueqat/gate.py:144-146), the others never read `params`. `none`: a parameter is not a number, which this model does not cover. -/
def GateObj.toGate (o : GateObj) : Option Gate :=
  match initParams o.cls with
  | some _ =>
    match o.params with
    | .tup vs =>
      match vs.mapM PyArg.toReal with
      | some xs => gateSet o.cls xs o.targets
      | Option.none => Option.none
    | _ => Option.none
  | Option.none => gateSet o.cls [] o.targets

/-- `_str_args` (blueqat/gate.py:38-42) for any value of `params`; `fmt` is `str(param)`. A string is iterated by characters; numbers
are not iterable. -/
def GateObj.strArgs (fmt : PyArg → String) (o : GateObj) : Except PyErr String :=
  if o.params.truthy = false then .ok ""
  else
    match o.params with
    | .tup vs => .ok ("(" ++ pyJoin ", " (vs.map fmt) ++ ")")
    | .str s => .ok ("(" ++ pyJoin ", " (s.toList.map (fun ch => fmt (.str (String.ofList [ch])))) ++ ")")
    | _ => .error .typeError

/-- `Gate.__str__` (blueqat/gate.py:63-66). -/
def GateObj.str (fmt : PyArg → String) (o : GateObj) : Except PyErr String :=
  match o.strArgs fmt with
  | .error e => .error e
  | .ok a =>
    match strTargets o.targets with
    | .error e => .error e
    | .ok t => .ok (o.cls ++ a ++ t)

/-! ## Runs -/

/-- An argument used as a number of shots: None or an integer (booleans are integers). -/
def PyArg.toShots : PyArg → Option (Option ℤ)
  | .none => some Option.none
  | .int i => some (some i)
  | .bool b => some (some (if b then 1 else 0))
  | _ => Option.none

/-- An argument used as `returns`: None or a string. -/
def PyArg.toReturns : PyArg → Option (Option String)
  | .none => some Option.none
  | .str s => some (some s)
  | _ => Option.none

/-- `"..." > 1` and `(...) > 1` are TypeErrors; a float can be compared (line 101). -/
def PyArg.comparable : PyArg → Bool
  | .float _ => true
  | _ => false

/-- `backend.run(self.ops, self.n_qubits, *args, **kwargs)` (blueqat/circuit.py:217) with `run(self, gates, n_qubits, *args, **kwargs)`
(e.g. blueqat/backends/backendbase.py:82): these keywords are given twice, a TypeError. -/
def PyCall.clashes (c : PyCall) : Bool := c.kw.has "self" || c.kw.has "gates" || c.kw.has "n_qubits"

/-- The parameters of `__parse_run_args` (blueqat/backends/numpy_backend.py:88). -/
def npRunParams : List (String × Option PyArg) :=
  [("shots", some .none), ("returns", some .none), ("ignore_global", some (.bool false))]

/-- `NumPyBackend.run(gates, n_qubits, *args, **kwargs)` (blueqat/backends/numpy_backend.py:87-131). A value of `returns` that is no
string is no key of the table (line 94); `range(shots)` of a value that is no integer is a TypeError (line 119), after the cache
is checked (line 107), or already at line 101. -/
def npRunCall (n : ℕ) (gates : List Gate) (be : NpBackend) (c : PyCall) (rnd : ℕ → ℝ) :
    NpBackend × Except PyErr (NpVal × (ℕ → ℝ)) :=
  if c.clashes = true then (be, .error .typeError)
  else
    match bindParams c.kw npRunParams c.args with
    | .error e => (be, .error e)
    | .ok [shots, returns, ignoreGlobal] =>
      match returns.toReturns with
      | Option.none => (be, .error .valueError)
      | some r =>
        match shots.toShots with
        | some s => npRunArgs n gates be ⟨s, r, ignoreGlobal.truthy, rnd⟩
        | Option.none =>
          if r.getD "shots" ∉ npReturnTypes then (be, .error .valueError)
          else if r = some "statevector" ∧ shots.comparable = false then (be, .error .typeError)
          else (be.clearIfInvalid n, .error .typeError)
    | .ok _ => (be, .error .typeError)

/-- The parameters of `__parse_run_args` (blueqat/backends/_numba_backend_impl.py:388-389). -/
def nbRunParams : List (String × Option PyArg) :=
  [("shots", some .none), ("returns", some .none), ("enable_cache", some (.bool true)), ("ignore_global", some (.bool false)),
    ("dtype", some .none)]

/-- `NumbaBackend.run(gates, n_qubits, *args, **kwargs)` (blueqat/backends/_numba_backend_impl.py:387-439), as `npRunCall`. -/
def nbRunCall (n : ℕ) (gates : List Gate) (be : NbBackend) (c : PyCall) (rnd : ℕ → ℝ) (interrupt : Option ℕ) :
    NbBackend × Except PyErr (NpVal × (ℕ → ℝ)) :=
  if c.clashes = true then (be, .error .typeError)
  else
    match bindParams c.kw nbRunParams c.args with
    | .error e => (be, .error e)
    | .ok [shots, returns, enableCache, ignoreGlobal, _] =>
      match returns.toReturns with
      | Option.none => (be, .error .valueError)
      | some r =>
        match shots.toShots with
        | some s => nbRunArgs n gates be ⟨s, r, enableCache.truthy, ignoreGlobal.truthy, rnd, interrupt⟩
        | Option.none =>
          if r.getD "shots" ∉ nbReturnTypes then (be, .error .valueError)
          else if r = some "statevector" ∧ shots.comparable = false then (be, .error .typeError)
          else (if enableCache.truthy then be.clearIfInvalid n else ⟨Option.none, -1⟩, .error .typeError)
    | .ok _ => (be, .error .typeError)

/-- `QasmOutputBackend.run(gates, n_qubits, *args, **kwargs)` (blueqat/backends/qasm_output_backend.py:23-40). -/
def qaRunCall (fmt : ℝ → String) (n : ℕ) (gates : List Gate) (c : PyCall) : Except PyErr String :=
  if c.clashes = true then .error .typeError
  else
    match bindParams c.kw [("output_prologue", some (.bool true))] c.args with
    | .error e => .error e
    | .ok vs => qaRun fmt n gates (vs.headD .none).truthy

/-- `SympyBackend.run(gates, n_qubits, *args, **kwargs)` (blueqat/backends/sympy_backend.py:160-162): positional arguments are not
looked at. -/
def syRunCall (n : ℕ) (gates : List Gate) (c : PyCall) : Except PyErr SMat :=
  if c.clashes = true then .error .typeError
  else syRun n gates ((c.kw.get "ignore_global").getD (.bool false)).truthy

/-- `circuit.run(*args, backend=None, **kwargs)` (blueqat/circuit.py:187,210-217): the keyword `backend`, and the arguments passed on
to the backend. -/
def splitBackend (c : PyCall) : PyArg × PyCall := ((c.kw.get "backend").getD .none, ⟨c.args, c.rest ["backend"]⟩)

end

end Blueqat
