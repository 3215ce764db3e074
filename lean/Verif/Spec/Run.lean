import Verif.NpRun
import Verif.Spec.World

/-!
# Specification: runs without history

`freshRun` is a run on a backend object that was made just now. `OwnNumpy w j s` says that a run of circuit `j`
naming the backend `s` uses a numpy object of the circuit's own (existing, or made by this run).
-/

namespace Spec

open Blueqat

/-- The value and the unused random numbers of a run with no cache. -/
noncomputable def freshRun (n : ℕ) (ops : List Gate) (a : RunArgs) : Except PyErr (NpVal × (ℕ → ℝ)) :=
  (npRunArgs n ops NpBackend.new a).2

/-- A program in which numpy backends live beside backends of any other kind. -/
noncomputable def beside {C B R : Type} (other : Kit C B RunArgs R) :
    Kit (Unit ⊕ C) (NpBackend ⊕ B) RunArgs ((NpVal × (ℕ → ℝ)) ⊕ R) where
  make
    | .inl c => .inl (npKit.make c)
    | .inr c => .inr (other.make c)
  cls
    | .inl b => .inl (npKit.cls b)
    | .inr b => .inr (other.cls b)
  run
    | .inl b, ops, n, a => let r := npKit.run b ops n a; (.inl r.1, r.2.map .inl)
    | .inr b, ops, n, a => let r := other.run b ops n a; (.inr r.1, r.2.map .inr)
  makeCache
    | .inl b, ops, n, a => let r := npKit.makeCache b ops n a; (.inl r.1, r.2)
    | .inr b, ops, n, a => let r := other.makeCache b ops n a; (.inr r.1, r.2)

/-- Running circuit `j` with backend name `s` uses a numpy object. -/
def OwnNumpy {V M C B : Type} (w : World V M (Unit ⊕ C) (NpBackend ⊕ B)) (j : ℕ) (s : String) : Prop :=
  (∃ b, PyDict.get (view w j).bes s = some (.inl b)) ∨
    (PyDict.get (view w j).bes s = none ∧ w.reg.backends.get s = some (.inl ()))

/-- The action is not `dagger(copy_backends=True)`. -/
def NoDaggerCopy {V M C A : Type} : Cmd V M C A → Prop
  | .dagger _ _ cb _ => cb = false
  | _ => True

end Spec
