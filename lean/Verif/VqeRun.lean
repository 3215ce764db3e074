import Verif.Vqe
import Verif.Qaoa

/-!
# Model of `blueqat/vqe.py`: objective functions and `Vqe.run`

Circuits are the values `OpsVal` of `Verif/Vqe.lean`. A minimizer is any finite strategy: it asks for values of the objective
at points of its choice, which may depend on the values it was told, and ends with a point.
-/

namespace Blueqat

noncomputable section

/-- A minimizer after it was called: the argument `minimizer` of `Vqe` (vqe.py:176-181, 194). -/
inductive Minimizer where
  | done (params : List ℝ)
  | ask (params : List ℝ) (next : ℝ → Minimizer)

/-- An ansatz (vqe.py:26-31): the fields and the method `get_circuit`, which the subclass defines. -/
structure Ansatz where
  hamiltonian : PExpr
  nParams : ℕ
  getCircuit : List ℝ → Except PyErr OpsVal
  sparse : Option PyMatrix

/-- An objective function: parameters and random numbers give a value and the unused random numbers. -/
abbrev Objective := List ℝ → (ℕ → ℝ) → Except PyErr (ℝ × (ℕ → ℝ))

/-- `circuit.make_cache()` (vqe.py:70, 75): a run without arguments. The cache itself changes no later result (C17, C18). -/
def cacheRun (c : OpsVal) (rnd : ℕ → ℝ) : Except PyErr (ℕ → ℝ) :=
  match runDefault c rnd with
  | .error e => .error e
  | .ok (_, rnd) => .ok rnd

/-- `objective` (vqe.py:68-71). -/
def Ansatz.objective (a : Ansatz) (sampler : Sampler) : Objective := fun params rnd =>
  match a.getCircuit params with
  | .error e => .error e
  | .ok c =>
    match cacheRun c rnd with
    | .error e => .error e
    | .ok rnd => getEnergy a.hamiltonian c sampler rnd

/-- `obj_expect` (vqe.py:73-76). -/
def Ansatz.objExpect (a : Ansatz) (sparse : PyMatrix) : Objective := fun params rnd =>
  match a.getCircuit params with
  | .error e => .error e
  | .ok c =>
    match cacheRun c rnd with
    | .error e => .error e
    | .ok rnd => getEnergySparse sparse c rnd

/-- `get_objective(sampler)` (vqe.py:66-82): the ansatz afterwards and the function. -/
def Ansatz.getObjective (jv : ℕ → ℂ) (ji : ℕ → ℕ) (a : Ansatz) (sampler : Option Sampler) : Except PyErr (Ansatz × Objective) :=
  match sampler with
  | some s => .ok (a, a.objective s)
  | none =>
    match a.sparse with
    | some m => .ok (a, a.objExpect m)
    | none =>
      match makeSparse jv ji a.hamiltonian with
      | .error e => .error e
      | .ok m => .ok ({ a with sparse := some m }, a.objExpect m)

/-- Running a minimizer on an objective; the third component is what `verbose_objective` prints (vqe.py:187-192). -/
def Minimizer.run (f : Objective) : Minimizer → (ℕ → ℝ) → Except PyErr (List ℝ × (ℕ → ℝ) × List (List ℝ × ℝ))
  | .done p, rnd => .ok (p, rnd, [])
  | .ask p next, rnd =>
    match f p rnd with
    | .error e => .error e
    | .ok (v, rnd) =>
      match (next v).run f rnd with
      | .error e => .error e
      | .ok (q, rnd, log) => .ok (q, rnd, (p, v) :: log)

/-- What `Vqe.run` leaves behind: the ansatz, which may have got its matrix, the parameters, the result and the printed
lines. -/
structure VqeOutcome where
  ansatz : Ansatz
  params : List ℝ
  result : VqeResult
  printed : List (List ℝ × ℝ)

/-- `Vqe(ansatz, minimizer, sampler).run(verbose)` (vqe.py:184-196); `minimizer` is called with the number of parameters. -/
def vqeRun (jv : ℕ → ℂ) (ji : ℕ → ℕ) (ansatz : Ansatz) (minimizer : ℕ → Minimizer) (sampler : Option Sampler) (verbose : Bool)
    (rnd : ℕ → ℝ) : Except PyErr (VqeOutcome × (ℕ → ℝ)) :=
  match ansatz.getObjective jv ji sampler with
  | .error e => .error e
  | .ok (ansatz, f) =>
    match (minimizer ansatz.nParams).run f rnd with
    | .error e => .error e
    | .ok (params, rnd, log) =>
      match ansatz.getCircuit params with
      | .error e => .error e
      | .ok c => .ok (⟨ansatz, params, ⟨sampler, c, none⟩, if verbose then log else []⟩, rnd)

/-- A `Vqe` object: the attributes `__init__` sets, and `_result`, which is absent (`none`) unless somebody assigns it;
`some none` is `None`. -/
structure VqeObj where
  ansatz : Ansatz
  minimizer : ℕ → Minimizer
  sampler : Option Sampler
  resultAttr : Option (Option VqeResult)

/-- `Vqe.__init__(ansatz, minimizer, sampler)` (vqe.py:176-182); `dflt` is the default minimizer. -/
def VqeObj.new (dflt : ℕ → Minimizer) (ansatz : Ansatz) (minimizer : Option (ℕ → Minimizer)) (sampler : Option Sampler) : VqeObj :=
  ⟨ansatz, minimizer.getD dflt, sampler, none⟩

/-- `Vqe.run(verbose)` on the object (vqe.py:184-196): `get_objective` may store the matrix in the ansatz, even if the
minimization then raises; no attribute of the `Vqe` object is assigned. -/
def VqeObj.run (jv : ℕ → ℂ) (ji : ℕ → ℕ) (v : VqeObj) (verbose : Bool) (rnd : ℕ → ℝ) :
    VqeObj × Except PyErr (VqeOutcome × (ℕ → ℝ)) :=
  (match v.ansatz.getObjective jv ji v.sampler with
    | .error _ => v
    | .ok (a, _) => { v with ansatz := a },
   vqeRun jv ji v.ansatz v.minimizer v.sampler verbose rnd)

/-- `Vqe.result` (vqe.py:198-203): reading an absent attribute raises. `VqeResult()` has neither parameters nor circuit:
`empty` stands for it. -/
def VqeObj.result (empty : VqeResult) (v : VqeObj) : Except PyErr VqeResult :=
  match v.resultAttr with
  | none => .error .attributeError
  | some none => .ok empty
  | some (some r) => .ok r

/-- `get_scipy_minimizer(**kwargs)` (vqe.py:205-211): `scipy` is `scipy.optimize.minimize` with its options, started at the
given point; `random` are the numbers `random.random()` returns. -/
def scipyMinimizer (scipy : List ℝ → Minimizer) (random : ℕ → ℝ) : ℕ → Minimizer :=
  fun n => scipy ((List.range n).map random)

/-- A `QaoaAnsatz` in the state `w` of all objects as an `Ansatz`; `get_circuit` changes no existing object (C46). -/
def QaoaAnsatz.toAnsatz {V M C B A R : Type} (kit : Kit C B A R) (isAttr : String → Bool) (q : QaoaAnsatz) (w : World V M C B) : Ansatz where
  hamiltonian := q.hamiltonian
  nParams := q.nParams
  getCircuit params :=
    match q.getCircuit kit isAttr params w with
    | (_, .error e) => .error e
    | (w, .ok c) => .ok ⟨(w.circs c).n, w.lists (w.circs c).ops⟩
  sparse := none

end

end Blueqat
