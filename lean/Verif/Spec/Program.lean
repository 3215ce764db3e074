import Verif.Program
import Verif.Spec.Generated
import Verif.Spec.Run

/-!
# Specification: programs with the initial backends

A run gives what the same call gives on a new object of the backend's class.
-/

namespace Spec

open Blueqat

/-- The names of the initial table and their classes (the modelled ones). -/
def initialClass (name : String) : Option StdClass :=
  if name = "numpy" then some .numpy
  else if name = "numba" then some .numba
  else if name = "qasm_output" then some .qasm
  else if name = "sympy_unitary" then some .sympy
  else none

/-- The same call on a new object of the class: `NumPyBackend().run(ops, n, *args, **kwargs)` and so on. -/
noncomputable def onNewObject (fmt : ℝ → String) (cl : StdClass) (n : ℕ) (ops : List Gate) (a : CallArgs) : Except PyErr StdVal :=
  match cl with
  | .numpy => (npRunCall n ops NpBackend.new a.call a.rnd).2.map .sim
  | .numba => (nbRunCall n ops NbBackend.new a.call a.rnd a.interrupt).2.map .sim
  | .qasm => (qaRunCall fmt n ops a.call).map .text
  | .sympy => (syRunCall n ops a.call).map .matrix

/-- The action is not interrupted by the user. -/
def Uninterrupted {V M C : Type} : Cmd V M C CallArgs → Prop
  | .run _ _ a => a.interrupt = none
  | .runWith _ _ a => a.interrupt = none
  | .makeCache _ _ a => a.interrupt = none
  | _ => True

/-- An action of an ordinary program: no `dagger(copy_backends=True)`, no interruption, and the initial backend names are not
registered or unregistered. -/
def Ordinary {V M C : Type} (c : Cmd V M C CallArgs) : Prop :=
  NoDaggerCopy c ∧ Uninterrupted c ∧ ∀ name, (initialClass name).isSome → ¬ NamesBackend name c

/-- The action sets no default backend. -/
def SetsNoDefault {V M C A : Type} : Cmd V M C A → Prop
  | .setDefault _ _ => False
  | .setGlobalDefault _ => False
  | _ => True

end Spec
