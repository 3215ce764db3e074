import Verif.QasmBackend
import Verif.Spec.World

/-!
# Specification: running a circuit on a reader of OpenQASM

The reader gets the text of `c.to_qasm()` and the arguments of the run, and its answer is the result of the run.
-/

namespace Spec

open Blueqat

/-- The text of the circuit goes to the reader; if there is no text, its error is raised and the reader is not called. -/
noncomputable def readerResult {A R : Type} (fmt : ℝ → String) (runner : String → A → Except PyErr R) (n : ℕ) (ops : List Gate)
    (a : A) : Except PyErr R :=
  (qaRun fmt n ops true).bind (fun text => runner text a)

/-- The action registers or unregisters a backend of this name. -/
def NamesBackend {V M C A : Type} (name : String) : Cmd V M C A → Prop
  | .registerBackend s _ _ => s = name
  | .unregisterBackend s => s = name
  | _ => False

end Spec
