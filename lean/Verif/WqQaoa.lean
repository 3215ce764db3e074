import Verif.WqOpt
import Verif.VqeRun

/-!
# Model of blueqat/wq.py: `Opt.qaoa` and `Opt.sa`
-/

namespace Blueqat

noncomputable section

variable {V M C B A R : Type}

/-- `pauli(qubo)` (wq.py:18-29) for either kind of `qubo`: `len(qubo)`, the lengths of the rows and `qubo[i][j]` are the same
for an array and for the list of its rows. -/
def QuboVal.pauli : QuboVal → Except PyErr PVal
  | .rows r => wqPauli r
  | .array m => wqPauli m.toRows

/-- `Opt.qaoa(shots, step, verbose)` (wq.py:563-565) on an object whose attribute `qubo` is `q`, in the state `w` of all
circuits: the state afterwards and the result of the minimization. `shots` and `verbose` are not used. `dflt` is the
minimizer `Vqe` takes by default, `a` the arguments of the run that fills the cache of the initial circuit. No attribute of the
object is assigned. -/
def optQaoa (kit : Kit C B A R) (isAttr : String → Bool) (jv : ℕ → ℂ) (ji : ℕ → ℕ) (q : QuboVal) (_shots step : ℕ)
    (_verbose : Bool) (dflt : ℕ → Minimizer) (a : A) (rnd : ℕ → ℝ) (w : World V M C B) :
    World V M C B × Except PyErr (VqeOutcome × (ℕ → ℝ)) :=
  match q.pauli with
  | .error e => (w, .error e)
  | .ok ham =>
    match QaoaAnsatz.new kit isAttr ham step none none a w with
    | (w, .error e) => (w, .error e)
    | (w, .ok ansatz) =>
      let v := VqeObj.new dflt (ansatz.toAnsatz kit isAttr w) none none
      (w, (v.run jv ji false rnd).2)

/-- `Opt.sa(shots, sampler)` (wq.py:526-528): `run` with its default target temperature (wq.py:480). -/
def Opt.sa (o : Opt) (q : QuboVal) (shots : ℕ) (fast : Bool) (r : Rand) (fuel : ℕ) :
    Except PyErr (Option (SAResult × ELog)) := o.runVal q shots fast 0.02 r fuel

end

end Blueqat
