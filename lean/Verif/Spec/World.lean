import Verif.Circuit

/-!
# Specification: what can be observed of a circuit

The operations, the size, the default backend and the state of the circuit's own backend instances (on which
the results of its runs depend). Only projections of the model are used.
-/

namespace Spec

open Blueqat

/-- Everything observable about one circuit. -/
structure CircView (B : Type) where
  ops : List Gate
  n : ℕ
  dflt : Option String
  bes : List (String × B)

/-- The observable part of circuit number `i`. -/
def view {V M C B : Type} (w : World V M C B) (i : ℕ) : CircView B :=
  ⟨w.lists (w.circs i).ops, (w.circs i).n, (w.circs i).dflt, (w.circs i).bes.map (fun p => (p.1, w.bes p.2))⟩

/-- The circuit whose method is called by an action that may change it; `copy`, `+`, `dagger` and making new
objects have none. -/
def receiver {V M C A : Type} : Cmd V M C A → Option ℕ
  | .append i _ => some i
  | .appendCtorError i _ => some i
  | .iadd i _ => some i
  | .run i _ _ => some i
  | .runWith i _ _ => some i
  | .makeCache i _ _ => some i
  | .setDefault i _ => some i
  | _ => none

end Spec

namespace Spec

open Blueqat

/-- The action changes the module-level tables (registration, global default). -/
def touchesTables {V M C A : Type} : Cmd V M C A → Bool
  | .registerMacro .. => true
  | .unregisterMacro .. => true
  | .registerGate .. => true
  | .unregisterGate .. => true
  | .registerBackend .. => true
  | .unregisterBackend .. => true
  | .setGlobalDefault .. => true
  | _ => false

/-- The operation is a measurement or a reset. -/
def NonUnitary : Gate → Prop
  | .measure _ => True
  | .reset _ => True
  | _ => False

/-- The operations before the first measurement or reset. -/
def unitaryPart : List Gate → List Gate
  | [] => []
  | .measure _ :: _ => []
  | .reset _ :: _ => []
  | g :: gs => g :: unitaryPart gs

/-- Circuit `i` of the world has the operations and the size of the value `o`. -/
def Mirrors {V M C B : Type} (w : World V M C B) (i : ℕ) (o : OpsVal) : Prop :=
  i < w.nCircs ∧ (view w i).ops = o.ops ∧ (view w i).n = o.n

end Spec

namespace Spec

open Blueqat

variable {V M C : Type}

/-- The name is not free for a new gate or macro: an attribute of the class `Circuit`, a `run_with_` name, a
registered gate or a registered macro. -/
def Taken (isAttr : String → Bool) (r : Registry V M C) (name : String) : Prop :=
  isAttr name = true ∨ "run_with_".isPrefixOf name = true ∨ (∃ v, r.gates.get name = some v) ∨
    ∃ m, r.macros.get name = some m

/-- The backend name in force for a run: the explicit one, else the circuit's default, else the global default. -/
def inForce (explicit circuitDefault : Option String) (globalDefault : String) : String :=
  match explicit, circuitDefault with
  | some s, _ => s
  | none, some s => s
  | none, none => globalDefault

/-- The selector for an optional explicit name. -/
def selOf : Option String → Sel
  | none => .none
  | some s => .name s

end Spec
