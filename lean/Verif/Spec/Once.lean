import Verif.Spec.Circuit

/-!
# Specification: operations that count repeated qubits once

The symbolic backend has methods of its own for eleven one-qubit gates. For these a subscript is read as a set of qubits.
-/

namespace Spec

open Blueqat

/-- The one-qubit gates with a method of their own in the symbolic backend. -/
def SympyOwn : G1 → Prop
  | .x | .y | .z | .h | .rx _ | .ry _ | .rz _ | .phase _ | .u1 _ | .u2 _ _ | .u3 _ _ _ => True
  | _ => False

/-- What a gate object does if a qubit that is named several times counts once, for the gates of `SympyOwn`. -/
def GateOnce (n : ℕ) (g : Gate) (es : List Elem) : Prop :=
  match g with
  | .g1 k T => ∃ L : List ℕ, TargetsDenote n T (L.map (fun q : ℕ => (q : Int))) ∧
      ((SympyOwn k ∧ es = L.dedup.map (Elem.one k)) ∨ (¬ SympyOwn k ∧ es = L.map (Elem.one k)))
  | g => GateDenotes n g es

/-- The same for a list of gate objects. -/
def GatesOnce (n : ℕ) : List Gate → List Elem → Prop
  | [], es => es = []
  | g :: gs, es => ∃ e₁ e₂, GateOnce n g e₁ ∧ GatesOnce n gs e₂ ∧ es = e₁ ++ e₂

end Spec
