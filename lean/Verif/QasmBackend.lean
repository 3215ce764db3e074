import Verif.Circuit
import Verif.Ibmq

/-!
# Backends generated from a reader of OpenQASM (blueqat/backends/qasm_parser_backend_generator.py)

`generate_backend(runner)` wraps a function of a program text into something `BlueqatGlobalSetting.register_backend` accepts.

Simplifications: the runner is a function of the text and the arguments (`A`), without a state of its own; the two methods which
the class inherits from `Backend`, `copy` and `make_cache`, are those of blueqat/backends/backendbase.py:25-31,75-80.
-/

namespace Blueqat

section
variable {A R C B : Type}

/-- A `QasmParsableBackend` object (blueqat/backends/qasm_parser_backend_generator.py:19-29). Its other attribute, `to_qasm`, is a
`QasmOutputBackend`, an object without state. -/
structure ParsableBackend (A R : Type) where
  runner : String → A → Except PyErr R

/-- `QasmParsableBackend.run` (blueqat/backends/qasm_parser_backend_generator.py:31-33), with the object afterwards. -/
noncomputable def ParsableBackend.run (fmt : ℝ → String) (b : ParsableBackend A R) (gates : List Gate) (n : ℕ) (a : A) :
    ParsableBackend A R × Except PyErr R :=
  (b, qasmParsableRun fmt (fun qasm => b.runner qasm a) gates n)

/-- `generate_backend` (blueqat/backends/qasm_parser_backend_generator.py:35-49): a function without arguments that makes the
object. -/
def generateBackend (runner : String → A → Except PyErr R) : Unit → ParsableBackend A R := fun _ => ⟨runner⟩

/-- A program in which generated backends live beside backends of any other kind. What `register_backend` stores for a generated
backend is the function of line 49; calling it makes the object (blueqat/circuit.py:103). `make_cache` is inherited and does nothing
(blueqat/backends/backendbase.py:75-80). -/
noncomputable def parsableKit (fmt : ℝ → String) (other : Kit C B A R) :
    Kit ((Unit → ParsableBackend A R) ⊕ C) (ParsableBackend A R ⊕ B) A R where
  make
    | .inl f => .inl (f ())
    | .inr c => .inr (other.make c)
  cls
    | .inl b => .inl (fun _ => b)
    | .inr b => .inr (other.cls b)
  run
    | .inl b, ops, n, a => let r := b.run fmt ops n a; (.inl r.1, r.2)
    | .inr b, ops, n, a => let r := other.run b ops n a; (.inr r.1, r.2)
  makeCache
    | .inl b, _, _, _ => (.inl b, .ok ())
    | .inr b, ops, n, a => let r := other.makeCache b ops n a; (.inr r.1, r.2)

end

end Blueqat
