import Verif.Calls

/-!
# Gate names and text of `Ops` (blueqat/experimental/operations.py)

All line numbers are of blueqat/experimental/operations.py. Simplification: `name` is no attribute of a named tuple (such as `ops`,
`count` or `index`). `GLOBAL_MACROS` (line 44) is empty and nothing in the library adds to it.
-/

namespace Blueqat

/-- The class of a name in this module's own `GATE_SET`, as its `lowername` (lines 6-42). -/
def opsGateClass : String → Option String
  | "i" => some "i"
  | "x" => some "x"
  | "y" => some "y"
  | "z" => some "z"
  | "h" => some "h"
  | "t" => some "t"
  | "tdg" => some "tdg"
  | "s" => some "s"
  | "sdg" => some "sdg"
  | "cz" => some "cz"
  | "cx" => some "cx"
  | "cnot" => some "cx"
  | "cy" => some "cy"
  | "ch" => some "ch"
  | "rx" => some "rx"
  | "ry" => some "ry"
  | "rz" => some "rz"
  | "r" => some "phase"
  | "phase" => some "phase"
  | "crx" => some "crx"
  | "cry" => some "cry"
  | "crz" => some "crz"
  | "cr" => some "cphase"
  | "cphase" => some "cphase"
  | "u1" => some "u1"
  | "u2" => some "u2"
  | "u3" => some "u3"
  | "cu1" => some "cu1"
  | "cu2" => some "cu2"
  | "cu3" => some "cu3"
  | "swap" => some "swap"
  | "ccx" => some "ccx"
  | "toffoli" => some "ccx"
  | "measure" => some "measure"
  | "m" => some "measure"
  | _ => Option.none

noncomputable section

/-- `ops.name(*args, **kwargs)[T]` (lines 54-59, 83-92): the maximum index is computed before the gate is constructed. The result
is the new number of qubits and the new gate object; it is appended to a copy of the tuple (lines 91-92). -/
def opsCall (n : ℕ) (name : String) (c : PyCall) (T : Targets) : Except PyErr (ℕ × GateObj) :=
  match opsGateClass name with
  | Option.none => .error .attributeError
  | some cls =>
    match getMaximumIndex T with
    | .error e => .error e
    | .ok mx =>
      match makeGate cls T c with
      | .error e => .error e
      | .ok g => .ok (newQubits mx n, g)

/-- `Ops.__repr__` (lines 51-52). -/
def reprOps (fmt : ℝ → String) (n : ℕ) (ops : List Gate) : Except PyErr String :=
  match ops.mapM (strGate fmt) with
  | .ok parts => .ok ("Ops(" ++ toString n ++ ")." ++ pyJoin "." parts)
  | .error e => .error e

end

end Blueqat
