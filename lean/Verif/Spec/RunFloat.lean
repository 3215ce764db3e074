import Verif.FloatKit
import Verif.Spec.Run

/-!
# Specification: runs without history, in rounded arithmetic
-/

namespace Spec

open Blueqat

/-- The value and the unused random numbers of a numpy run on a new backend object. -/
noncomputable def freshFloat (P : PhaseOps) (F : FloatOps) (n : ℕ) (ops : List Gate) (a : RunArgs) :
    Except PyErr (NpVal × (ℕ → ℝ)) :=
  (flRunPhase P F n ops NpBackend.new a).2

/-- The value and the unused random numbers of a numba run with dtype `d` and no cache: a new backend object and
`enable_cache=False`. -/
noncomputable def freshTyped {D : Type} [DecidableEq D] (P : D → PhaseOps) (K : D → NbFloat) (n : ℕ) (ops : List Gate)
    (a : NbArgs) (d : D) : Except PyErr (NpVal × (ℕ → ℝ)) :=
  (nbTypedRun P K n ops NbTyped.new { a with enableCache := false } d).2

/-- A program in which backends of one class live beside backends of any other kind. -/
noncomputable def besideClass {S A X C B R : Type} (one : Kit Unit S A X) (other : Kit C B A R) :
    Kit (Unit ⊕ C) (S ⊕ B) A (X ⊕ R) where
  make
    | .inl c => .inl (one.make c)
    | .inr c => .inr (other.make c)
  cls
    | .inl b => .inl (one.cls b)
    | .inr b => .inr (other.cls b)
  run
    | .inl b, ops, n, a => let r := one.run b ops n a; (.inl r.1, r.2.map .inl)
    | .inr b, ops, n, a => let r := other.run b ops n a; (.inr r.1, r.2.map .inr)
  makeCache
    | .inl b, ops, n, a => let r := one.makeCache b ops n a; (.inl r.1, r.2)
    | .inr b, ops, n, a => let r := other.makeCache b ops n a; (.inr r.1, r.2)

/-- Running circuit `j` with backend name `s` uses an object of that class. -/
def OwnClass {V M S C B : Type} (w : World V M (Unit ⊕ C) (S ⊕ B)) (j : ℕ) (s : String) : Prop :=
  (∃ b, PyDict.get (view w j).bes s = some (.inl b)) ∨
    (PyDict.get (view w j).bes s = none ∧ w.reg.backends.get s = some (.inl ()))

/-- The action is not a run (or `make_cache`) that the user interrupts. -/
def NoInterruptTyped {V M C D : Type} : Cmd V M C (NbArgs × D) → Prop
  | .run _ _ a => a.1.interrupt = none
  | .runWith _ _ a => a.1.interrupt = none
  | .makeCache _ _ a => a.1.interrupt = none
  | _ => True

end Spec
