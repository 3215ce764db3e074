import Verif.Wrapper
import Verif.Spec.Append
import Verif.Spec.World

/-!
# Specification: what a history of uses of gate wrappers means

Histories are written newest action first. A wrapper is known by its number: the how-manieth gate name the program fetched. The gate
that a name and a call stand for is `callGate` (C82, C104).
-/

namespace Spec

open Blueqat (WrapWorld World WrapCmd OpsWrapCmd PyCall PyArg Targets GateObj callGate gateClass)

/-- The circuit and the gate name of each wrapper, oldest first. -/
def fetched : List WrapCmd → List (ℕ × String)
  | [] => []
  | .attr i name :: older => if (gateClass name).isSome then fetched older ++ [(i, name)] else fetched older
  | _ :: older => fetched older

/-- The arguments given to wrapper `k` last; a wrapper that was not called has no arguments. -/
def givenArgs : List WrapCmd → ℕ → PyCall
  | [], _ => ⟨[], []⟩
  | .call j c :: older, k => if j = k ∧ k < (fetched older).length then c else givenArgs older k
  | _ :: older, k => givenArgs older k

/-- The subscript of wrapper `k` used last. -/
def lastSubscript : List WrapCmd → ℕ → Option Targets
  | [], _ => none
  | .item j T :: older, k => if j = k ∧ k < (fetched older).length then some T else lastSubscript older k
  | _ :: older, k => lastSubscript older k

/-- The gates written to circuit `i`: one for each subscript of a wrapper of that circuit, with the arguments given last. -/
def written : List WrapCmd → ℕ → List GateObj
  | [], _ => []
  | .item k T :: older, i =>
    match (fetched older)[k]? with
    | some (j, name) => if j = i then written older i ++ (callGate name (givenArgs older k) T).toOption.toList else written older i
    | none => written older i
  | _ :: older, i => written older i

/-- The text of an argument list: every argument by itself, the keyword arguments as one dictionary called kwargs. -/
def argList (rep : PyArg → String) (dict : String) (c : PyCall) : List String :=
  c.args.map rep ++ (if c.kw = [] then [] else ["kwargs=" ++ dict])

/-- The arguments given last to the only wrapper of an `Ops` history, newest action first. -/
def opsGivenArgs : List OpsWrapCmd → PyCall
  | [] => ⟨[], []⟩
  | .call c :: _ => c
  | .item _ :: older => opsGivenArgs older

/-- The subscript used last in such a history. -/
def opsLastSubscript : List OpsWrapCmd → Option Targets
  | [] => none
  | .item T :: _ => some T
  | .call _ :: older => opsLastSubscript older

/-- The circuits of a program with wrappers and of a program of the circuit model hold the same gates, in the same order, and have the
same sizes. -/
def SameCircuits {V M C B : Type} (w : World V M C B) (ww : WrapWorld) : Prop :=
  ∀ j < w.nCircs, (view w j).n = (ww.circs j).n ∧
    List.Forall₂ (fun o g => GateObj.toGate o = some g) (ww.circs j).ops (view w j).ops

end Spec
