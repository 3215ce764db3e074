import Verif.PyDict

/-!
# Registries and backend defaults (blueqat/circuit.py:30-83, 301-460)

`V`, `M`, `C` are the types of gate classes, macro functions and backend classes; the registry never looks
inside them. `isAttr` is `hasattr(Circuit, ·)`; it is a parameter, fixed during a history.
-/

namespace Blueqat

/-- The module-level tables (blueqat/circuit.py:30-83). -/
structure Registry (V M C : Type) where
  gates : PyDict String V
  macros : PyDict String M
  backends : PyDict String C
  dflt : String

/-- `name.startswith("run_with_")` (blueqat/circuit.py:117). -/
def startsRunWith (name : String) : Bool := "run_with_".isPrefixOf name

section
variable {V M C : Type}

/-- `register_macro` (blueqat/circuit.py:303-332). -/
def Registry.registerMacro (isAttr : String → Bool) (r : Registry V M C) (name : String) (f : M)
    (allow : Bool) : Except PyErr (Registry V M C) :=
  if isAttr name = true ∧ allow = false then .error .valueError
  else if startsRunWith name = true ∧ allow = false then .error .valueError
  else if allow = false ∧ r.gates.has name = true then .error .valueError
  else if allow = false ∧ r.macros.has name = true then .error .valueError
  else .ok { r with macros := r.macros.set name f }

/-- `unregister_macro` (blueqat/circuit.py:334-346). -/
def Registry.unregisterMacro (r : Registry V M C) (name : String) : Except PyErr (Registry V M C) :=
  if r.macros.has name = false then .error .valueError
  else .ok { r with macros := r.macros.del name }

/-- `register_gate` (blueqat/circuit.py:348-377). -/
def Registry.registerGate (isAttr : String → Bool) (r : Registry V M C) (name : String) (g : V)
    (allow : Bool) : Except PyErr (Registry V M C) :=
  if isAttr name = true ∧ allow = false then .error .valueError
  else if startsRunWith name = true ∧ allow = false then .error .valueError
  else if allow = false ∧ r.gates.has name = true then .error .valueError
  else if allow = false ∧ r.macros.has name = true then .error .valueError
  else .ok { r with gates := r.gates.set name g }

/-- `unregister_gate` (blueqat/circuit.py:379-391). -/
def Registry.unregisterGate (r : Registry V M C) (name : String) : Except PyErr (Registry V M C) :=
  if r.gates.has name = false then .error .valueError
  else .ok { r with gates := r.gates.del name }

/-- `register_backend` (blueqat/circuit.py:393-416). -/
def Registry.registerBackend (isAttr : String → Bool) (r : Registry V M C) (name : String) (c : C)
    (allow : Bool) : Except PyErr (Registry V M C) :=
  if isAttr ("run_with_" ++ name) = true ∧ allow = false then .error .valueError
  else if allow = false ∧ r.backends.has name = true then .error .valueError
  else .ok { r with backends := r.backends.set name c }

/-- `unregister_backend` (blueqat/circuit.py:418-430). Line 428 looks the name up in GATE_SET. -/
def Registry.unregisterBackend (r : Registry V M C) (name : String) : Except PyErr (Registry V M C) :=
  if r.gates.has name = false then .error .valueError
  else if r.backends.has name = false then .error .keyError
  else .ok { r with backends := r.backends.del name }

/-- `BlueqatGlobalSetting.set_default_backend` (blueqat/circuit.py:439-451). -/
def Registry.setDefault (r : Registry V M C) (name : String) : Except PyErr (Registry V M C) :=
  if r.backends.has name = false then .error .valueError
  else .ok { r with dflt := name }

/-- What `circuit.name` evaluates to. -/
inductive Attr (V M : Type) where
  | attribute
  | gate (v : V)
  | macro (m : M)
  | runner (backend : String)
  deriving DecidableEq

/-- Attribute access on a circuit: ordinary attributes first, then `__getattr__` (blueqat/circuit.py:112-122).
`isInst` tells which names are attributes of the instance or its class. -/
def Registry.lookup (isInst : String → Bool) (r : Registry V M C) (name : String) : Except PyErr (Attr V M) :=
  if isInst name = true then .ok .attribute
  else match r.gates.get name with
    | some v => .ok (.gate v)
    | none =>
      match r.macros.get name with
      | some m => .ok (.macro m)
      | none =>
        if startsRunWith name = true then
          if r.backends.has (String.ofList (name.toList.drop 9)) = true
          then .ok (.runner (String.ofList (name.toList.drop 9)))
          else .error .attributeError
        else .error .attributeError

end

end Blueqat
