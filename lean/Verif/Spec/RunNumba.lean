import Verif.Numba
import Verif.Spec.Run

/-!
# Specification: numba runs without history
-/

namespace Spec

open Blueqat

/-- The value and the unused random numbers of a numba run with no cache: a new backend object and
`enable_cache=False`. -/
noncomputable def freshNumba (n : ℕ) (ops : List Gate) (a : NbArgs) : Except PyErr (NpVal × (ℕ → ℝ)) :=
  (nbRunArgs n ops NbBackend.new { a with enableCache := false }).2

/-- A program in which numba backends live beside backends of any other kind. -/
noncomputable def besideNumba {C B R : Type} (other : Kit C B NbArgs R) :
    Kit (Unit ⊕ C) (NbBackend ⊕ B) NbArgs ((NpVal × (ℕ → ℝ)) ⊕ R) where
  make
    | .inl c => .inl (nbKit.make c)
    | .inr c => .inr (other.make c)
  cls
    | .inl b => .inl (nbKit.cls b)
    | .inr b => .inr (other.cls b)
  run
    | .inl b, ops, n, a => let r := nbKit.run b ops n a; (.inl r.1, r.2.map .inl)
    | .inr b, ops, n, a => let r := other.run b ops n a; (.inr r.1, r.2.map .inr)
  makeCache
    | .inl b, ops, n, a => let r := nbKit.makeCache b ops n a; (.inl r.1, r.2)
    | .inr b, ops, n, a => let r := other.makeCache b ops n a; (.inr r.1, r.2)

/-- Running circuit `j` with backend name `s` uses a numba object. -/
def OwnNumba {V M C B : Type} (w : World V M (Unit ⊕ C) (NbBackend ⊕ B)) (j : ℕ) (s : String) : Prop :=
  (∃ b, PyDict.get (view w j).bes s = some (.inl b)) ∨
    (PyDict.get (view w j).bes s = none ∧ w.reg.backends.get s = some (.inl ()))

/-- The action is not a run (or `make_cache`) that the user interrupts. -/
def NoInterrupt {V M C : Type} : Cmd V M C NbArgs → Prop
  | .run _ _ a => a.interrupt = none
  | .runWith _ _ a => a.interrupt = none
  | .makeCache _ _ a => a.interrupt = none
  | _ => True

end Spec
