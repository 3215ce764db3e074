import Verif.Numba
import Mathlib.Logic.Relation

/-!
# Specification: parallel execution of loop iterations

Every iteration is a thread with its own local variables. At each step any thread that is not finished performs its
next read or write of the shared array. All interleavings are allowed, not only those that keep iterations whole.
-/

namespace Spec

open Blueqat

/-- A running iteration: the accesses it still has to make, and its local variables. -/
structure Thread where
  prog : List Ins
  loc : Loc

/-- One thread performs its next access. -/
inductive Step : Arr × List Thread → Arr × List Thread → Prop
  | mk (q : Arr) (ths : List Thread) (k : ℕ) (th : Thread) (i : Ins) (rest : List Ins) (hk : ths[k]? = some th)
      (hp : th.prog = i :: rest) :
      Step (q, ths) ((i.exec (th.loc, q)).2, ths.set k ⟨rest, (i.exec (th.loc, q)).1⟩)

/-- All iterations before their first access. -/
def startThreads (ps : List (List Ins)) : List Thread := ps.map fun p => ⟨p, ⟨0, 0⟩⟩

/-- All iterations are finished. -/
def Done (ths : List Thread) : Prop := ∀ th ∈ ths, th.prog = []

/-- Some schedule of the iterations `ps` turns the array `q` into `q'`. -/
def ParallelRun (ps : List (List Ins)) (q q' : Arr) : Prop :=
  ∃ ths, Relation.ReflTransGen Step (q, startThreads ps) (q', ths) ∧ Done ths

/-- The array element an access reads or writes. -/
def address : Ins → ℕ
  | .loadT a => a
  | .loadU a => a
  | .store a _ => a

end Spec
