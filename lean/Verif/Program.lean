import Verif.Circuit
import Verif.Calls

/-!
# Programs with the initial backends (blueqat/circuit.py:75-83)

One program in which circuits run on the backends of the initial table: numpy, numba, the OpenQASM printer and sympy, with the
arguments as the caller writes them (`Verif.Calls`).

Simplifications: the two other entries, ibmq and qgate, and all classes registered later are any classes (`other`, given as a `Kit`). sympy is installed; the argument
`dtype` of the numba backend keeps its default, as in `Verif.Calls`.
`BACKENDS["numba"]` is a function that imports the implementation and makes the object; it counts as the class here
(blueqat/backends/numba_backend.py).
-/

namespace Blueqat

section
variable {V M C B R : Type}

/-- A call of `run`: the arguments passed on to the backend, the random numbers, and the operation at which the user interrupts the
run, if any (as in `NbArgs`). -/
structure CallArgs where
  call : PyCall
  rnd : ℕ → ℝ
  interrupt : Option ℕ

/-- The modelled classes in `BACKENDS` (blueqat/circuit.py:75-82). -/
inductive StdClass where
  | numpy
  | numba
  | qasm
  | sympy
  deriving DecidableEq

/-- Their objects; those of `QasmOutputBackend` and `SympyBackend` have no state that runs change
(blueqat/backends/qasm_output_backend.py:21, blueqat/backends/sympy_backend.py:46-59). -/
inductive StdObj where
  | numpy (be : NpBackend)
  | numba (be : NbBackend)
  | qasm
  | sympy

/-- What they return: a state vector, counts, ... with the unused random numbers; a text; a matrix. -/
inductive StdVal where
  | sim (r : NpVal × (ℕ → ℝ))
  | text (s : String)
  | matrix (m : SMat)

/-- `type(obj)`. -/
def StdObj.cls : StdObj → StdClass
  | .numpy _ => .numpy
  | .numba _ => .numba
  | .qasm => .qasm
  | .sympy => .sympy

/-- `backend()` (blueqat/circuit.py:103). -/
def StdObj.make : StdClass → StdObj
  | .numpy => .numpy NpBackend.new
  | .numba => .numba NbBackend.new
  | .qasm => .qasm
  | .sympy => .sympy

/-- `backend.run(self.ops, self.n_qubits, *args, **kwargs)` (blueqat/circuit.py:109,217), with the object afterwards. -/
noncomputable def StdObj.run (fmt : ℝ → String) (gates : List Gate) (n : ℕ) (a : CallArgs) : StdObj → StdObj × Except PyErr StdVal
  | .numpy be => let r := npRunCall n gates be a.call a.rnd; (.numpy r.1, r.2.map .sim)
  | .numba be => let r := nbRunCall n gates be a.call a.rnd a.interrupt; (.numba r.1, r.2.map .sim)
  | .qasm => (.qasm, (qaRunCall fmt n gates a.call).map .text)
  | .sympy => (.sympy, (syRunCall n gates a.call).map .matrix)

/-- `backend.make_cache(self.ops, self.n_qubits)` (blueqat/circuit.py:228; blueqat/backends/numpy_backend.py:133-134,
blueqat/backends/_numba_backend_impl.py:441-442, blueqat/backends/backendbase.py:75-80). -/
noncomputable def StdObj.makeCache (gates : List Gate) (n : ℕ) (a : CallArgs) : StdObj → StdObj × Except PyErr Unit
  | .numpy be => let r := npMakeCache n gates be a.rnd; (.numpy r.1, r.2)
  | .numba be => let r := nbMakeCache n gates be ⟨none, none, true, false, a.rnd, a.interrupt⟩; (.numba r.1, r.2)
  | .qasm => (.qasm, .ok ())
  | .sympy => (.sympy, .ok ())

/-- All backends of the program. -/
noncomputable def stdKit (fmt : ℝ → String) (other : Kit C B CallArgs R) : Kit (StdClass ⊕ C) (StdObj ⊕ B) CallArgs (StdVal ⊕ R) where
  make
    | .inl c => .inl (StdObj.make c)
    | .inr c => .inr (other.make c)
  cls
    | .inl b => .inl b.cls
    | .inr b => .inr (other.cls b)
  run
    | .inl b, ops, n, a => let r := b.run fmt ops n a; (.inl r.1, r.2.map .inl)
    | .inr b, ops, n, a => let r := other.run b ops n a; (.inr r.1, r.2.map .inr)
  makeCache
    | .inl b, ops, n, a => let r := b.makeCache ops n a; (.inl r.1, r.2)
    | .inr b, ops, n, a => let r := other.makeCache b ops n a; (.inr r.1, r.2)

/-- `BACKENDS` and `DEFAULT_BACKEND_NAME` at the start (blueqat/circuit.py:75-83). -/
def initBackends (ibmq qgate : C) : PyDict String (StdClass ⊕ C) :=
  [("numpy", .inl .numpy), ("numba", .inl .numba), ("qasm_output", .inl .qasm), ("ibmq", .inr ibmq),
    ("sympy_unitary", .inl .sympy), ("qgate", .inr qgate)]

/-- The module tables at the start (blueqat/circuit.py:30-83); `gates` is `GATE_SET`, there are no macros. -/
def initTables (gates : PyDict String V) (ibmq qgate : C) : Registry V M (StdClass ⊕ C) :=
  ⟨gates, [], initBackends ibmq qgate, "numpy"⟩

end

end Blueqat
