import Verif.Circuit
import Verif.Qasm

/-!
# The text of gates and circuits (blueqat/gate.py:38-66, blueqat/circuit.py:93-94)

Simplifications: the text of a number (`str(param)`) is a parameter `fmt`; `kwargs` are not printed by the code and
not modelled.
-/

namespace Blueqat

/-- `gate.lowername` (blueqat/gate.py:99-285). -/
def G1.lowername : G1 → String
  | .i => "i"
  | .x => "x"
  | .y => "y"
  | .z => "z"
  | .h => "h"
  | .t => "t"
  | .tdg => "tdg"
  | .s => "s"
  | .sdg => "sdg"
  | .rx _ => "rx"
  | .ry _ => "ry"
  | .rz _ => "rz"
  | .phase _ => "phase"
  | .u1 _ => "u1"
  | .u2 _ _ => "u2"
  | .u3 _ _ _ => "u3"

/-- `gate.lowername` (blueqat/gate.py:299-546). -/
def G2.lowername : G2 → String
  | .cx => "cx"
  | .cz => "cz"
  | .cy => "cy"
  | .ch => "ch"
  | .crx _ => "crx"
  | .cry _ => "cry"
  | .crz _ => "crz"
  | .cphase _ => "cphase"
  | .rxx _ => "rxx"
  | .ryy _ => "ryy"
  | .rzz _ => "rzz"
  | .swap => "swap"
  | .cu1 _ => "cu1"
  | .cu2 _ _ => "cu2"
  | .cu3 _ _ _ => "cu3"

/-- `gate.lowername` (blueqat/gate.py:570,598,606). -/
def G3.lowername : G3 → String
  | .ccx => "ccx"
  | .ccz => "ccz"
  | .cswap => "cswap"

/-- `gate.lowername` (blueqat/gate.py:99-629). -/
def Gate.lowername : Gate → String
  | .g1 k _ => k.lowername
  | .g2 k _ => k.lowername
  | .g3 k _ => k.lowername
  | .measure _ => "measure"
  | .reset _ => "reset"

/-- `gate.params` as the constructors store them (blueqat/gate.py:22-27,144-146,156-158,168-170,188-190,254-256,
270-273,287-291). -/
def G1.params : G1 → List ℝ
  | .rx θ => [θ]
  | .ry θ => [θ]
  | .rz θ => [θ]
  | .phase θ => [θ]
  | .u1 lam => [lam]
  | .u2 φ lam => [φ, lam]
  | .u3 θ φ lam => [θ, φ, lam]
  | _ => []

/-- `gate.params` of two-qubit gates (blueqat/gate.py:22-27,348-350,368-370,388-390,408-410,426-428,448-450,470-472,
509-511,531-534,548-552). -/
def G2.params : G2 → List ℝ
  | .crx θ => [θ]
  | .cry θ => [θ]
  | .crz θ => [θ]
  | .cphase θ => [θ]
  | .rxx θ => [θ]
  | .ryy θ => [θ]
  | .rzz θ => [θ]
  | .cu1 lam => [lam]
  | .cu2 φ lam => [φ, lam]
  | .cu3 θ φ lam => [θ, φ, lam]
  | _ => []

/-- `gate.params`; the other classes keep the default `()` (blueqat/gate.py:22). -/
def Gate.params : Gate → List ℝ
  | .g1 k _ => k.params
  | .g2 k _ => k.params
  | _ => []

/-- `'' if x is None else str(x.__index__())` (blueqat/gate.py:48-49). -/
def strBound : Option Int → String
  | none => ""
  | some i => toString i

/-- `_slice_to_str(obj)` (blueqat/gate.py:46-56) for one subscript element; a value without `__index__` raises
AttributeError at line 56. -/
def sliceToStr : Atom → Except PyErr String
  | .slice start stop none => .ok (strBound start ++ ":" ++ strBound stop)
  | .slice start stop (some step) => .ok (strBound start ++ ":" ++ strBound stop ++ ":" ++ toString step)
  | .int i => .ok (toString i)
  | .bad => .error .attributeError

/-- `_slice_to_str` of an element of the tuple `targets`; a tuple has no `__index__` (blueqat/gate.py:56). -/
def sliceToStrItem : Item → Except PyErr String
  | .atom a => sliceToStr a
  | .tup _ => .error .attributeError

/-- `_str_targets` (blueqat/gate.py:44-61). -/
def strTargets : Targets → Except PyErr String
  | .tup xs =>
    match xs.mapM sliceToStrItem with
    | .ok parts => .ok ("[" ++ pyJoin ", " parts ++ "]")
    | .error e => .error e
  | .one a =>
    match sliceToStr a with
    | .ok s => .ok ("[" ++ s ++ "]")
    | .error e => .error e

/-- `_str_args` (blueqat/gate.py:38-42). -/
def strArgs (fmt : ℝ → String) (params : List ℝ) : String :=
  if params = [] then "" else "(" ++ pyJoin ", " (params.map fmt) ++ ")"

/-- `Gate.__str__` (blueqat/gate.py:63-66). -/
def strGate (fmt : ℝ → String) (g : Gate) : Except PyErr String :=
  match strTargets g.targets with
  | .ok t => .ok (g.lowername ++ strArgs fmt g.params ++ t)
  | .error e => .error e

/-- `Circuit.__repr__` (blueqat/circuit.py:93-94). -/
def reprCircuit (fmt : ℝ → String) (n : ℕ) (ops : List Gate) : Except PyErr String :=
  match ops.mapM (strGate fmt) with
  | .ok parts => .ok ("Circuit(" ++ toString n ++ ")." ++ pyJoin "." parts)
  | .error e => .error e

/-- One-qubit gate classes of `GATE_SET` with a constructor call (blueqat/circuit.py:31-57, blueqat/gate.py:22,144,156,
168,188,254,270,287). `none`: no such name, or a number of arguments that the model does not cover (the constructor
raises TypeError, except that one argument to a gate without parameters is stored in `params`). -/
def gateSet1 (name : String) (args : List ℝ) : Option G1 :=
  match name, args with
  | "i", [] => some .i
  | "x", [] => some .x
  | "y", [] => some .y
  | "z", [] => some .z
  | "h", [] => some .h
  | "t", [] => some .t
  | "tdg", [] => some .tdg
  | "s", [] => some .s
  | "sdg", [] => some .sdg
  | "rx", [θ] => some (.rx θ)
  | "ry", [θ] => some (.ry θ)
  | "rz", [θ] => some (.rz θ)
  | "r", [θ] => some (.phase θ)
  | "phase", [θ] => some (.phase θ)
  | "u1", [lam] => some (.u1 lam)
  | "u2", [φ, lam] => some (.u2 φ lam)
  | "u3", [θ, φ, lam] => some (.u3 θ φ lam)
  | _, _ => none

/-- Two-qubit gate classes of `GATE_SET` (blueqat/circuit.py:40-64). -/
def gateSet2 (name : String) (args : List ℝ) : Option G2 :=
  match name, args with
  | "cz", [] => some .cz
  | "cx", [] => some .cx
  | "cnot", [] => some .cx
  | "cy", [] => some .cy
  | "ch", [] => some .ch
  | "crx", [θ] => some (.crx θ)
  | "cry", [θ] => some (.cry θ)
  | "crz", [θ] => some (.crz θ)
  | "cr", [θ] => some (.cphase θ)
  | "cphase", [θ] => some (.cphase θ)
  | "cu1", [lam] => some (.cu1 lam)
  | "cu2", [φ, lam] => some (.cu2 φ lam)
  | "cu3", [θ, φ, lam] => some (.cu3 θ φ lam)
  | "swap", [] => some .swap
  | "rxx", [θ] => some (.rxx θ)
  | "ryy", [θ] => some (.ryy θ)
  | "rzz", [θ] => some (.rzz θ)
  | _, _ => none

/-- The other classes of `GATE_SET` (blueqat/circuit.py:65-70). -/
def gateSetOther (name : String) (args : List ℝ) (T : Targets) : Option Gate :=
  match name, args with
  | "ccx", [] => some (.g3 .ccx T)
  | "toffoli", [] => some (.g3 .ccx T)
  | "cswap", [] => some (.g3 .cswap T)
  | "reset", [] => some (.reset T)
  | "measure", [] => some (.measure T)
  | "m", [] => some (.measure T)
  | _, _ => none

/-- The gate object made by `circuit.name(*args)[T]` with the initial `GATE_SET` (blueqat/circuit.py:30-71,112-114,
278-288; positional parameters only). -/
def gateSet (name : String) (args : List ℝ) (T : Targets) : Option Gate :=
  match gateSet1 name args with
  | some k => some (.g1 k T)
  | none =>
    match gateSet2 name args with
    | some k => some (.g2 k T)
    | none => gateSetOther name args T

end Blueqat
