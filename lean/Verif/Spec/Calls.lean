import Verif.Calls

/-!
# Specification: arguments of Python calls
-/

namespace Spec

open Blueqat (PyArg PyCall PyDict)

/-- Python's rules for binding arguments to parameters (names with defaults): the positional arguments go to the first
parameters, which must not be given by keyword as well; every other parameter is given by its keyword or has a default. -/
structure Binds (params : List (String × Option PyArg)) (c : PyCall) (vals : List PyArg) : Prop where
  enough : c.args.length ≤ params.length
  total : vals.length = params.length
  positional : ∀ (i : ℕ) p d a, params[i]? = some (p, d) → c.args[i]? = some a → vals[i]? = some a ∧ ∀ v, (p, v) ∉ c.kw
  keyword : ∀ (i : ℕ) p d v, params[i]? = some (p, d) → c.args.length ≤ i → (p, v) ∈ c.kw → vals[i]? = some v
  default : ∀ (i : ℕ) p d, params[i]? = some (p, d) → c.args.length ≤ i → (∀ v, (p, v) ∉ c.kw) → ∃ v, d = some v ∧ vals[i]? = some v

/-- The documented parameters of the gates. -/
def paramNames : String → List String
  | "rx" | "ry" | "rz" | "r" | "phase" | "crx" | "cry" | "crz" | "cr" | "cphase" | "rxx" | "ryy" | "rzz" => ["theta"]
  | "u1" | "cu1" => ["lambd"]
  | "u2" | "cu2" => ["phi", "lambd"]
  | "u3" | "cu3" => ["theta", "phi", "lambd"]
  | _ => []

/-- A keyword with this name is given. -/
def Given (c : PyCall) (p : String) : Prop := ∃ v, (p, v) ∈ c.kw

/-- A keyword is given that a backend's `run` has already got by position. -/
def Clash (c : PyCall) : Prop := Given c "self" ∨ Given c "gates" ∨ Given c "n_qubits"

/-- The value a number has as a Python argument. -/
def IsNumber (a : PyArg) (x : ℝ) : Prop := a = .float x ∨ ∃ i : ℤ, a = .int i ∧ x = i

/-- The values Python takes as false: `None`, `0`, `False`, `0.0`, `""`, `()`. -/
inductive Falsy : PyArg → Prop
  | none : Falsy .none
  | zero : Falsy (.int 0)
  | no : Falsy (.bool false)
  | zeroFloat : Falsy (.float 0)
  | emptyStr : Falsy (.str "")
  | emptyTuple : Falsy (.tup [])

/-- The flag a value stands for. -/
def IsFlag (v : PyArg) (b : Bool) : Prop := b = false ↔ Falsy v

/-- The number of shots a value stands for (`none`: not given). -/
inductive IsShots : PyArg → Option ℤ → Prop
  | absent : IsShots .none none
  | int (i : ℤ) : IsShots (.int i) (some i)
  | yes : IsShots (.bool true) (some 1)
  | no : IsShots (.bool false) (some 0)

/-- The kind of result a value asks for (`none`: not given). -/
inductive IsReturns : PyArg → Option String → Prop
  | absent : IsReturns .none none
  | str (s : String) : IsReturns (.str s) (some s)

/-- The documented parameters of `run`, with their defaults. -/
def runParams : List (String × Option PyArg) :=
  [("shots", some .none), ("returns", some .none), ("ignore_global", some (.bool false))]

/-- The documented parameters of `run` on the numba backend, with their defaults (the default of `dtype` is the backend's). -/
def numbaRunParams : List (String × Option PyArg) :=
  [("shots", some .none), ("returns", some .none), ("enable_cache", some (.bool true)), ("ignore_global", some (.bool false)),
    ("dtype", some .none)]

end Spec
