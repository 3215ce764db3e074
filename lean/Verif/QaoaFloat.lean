import Verif.PauliAlgFloat
import Verif.VqeRun
import Verif.Qaoa

/-!
# `QaoaAnsatz` in rounded arithmetic (blueqat/vqe.py:85-137, blueqat/pauli.py:584-616)

As in `Verif.Qaoa`, but with the arithmetic of the machine: `P : PauliOps` for the coefficients of the Hamiltonian,
`O : AngleOps` for the angles. The gates keep the angles the machine computes; what the simulator does with them is in
`Verif.NpFloat`. Simplifications as in `Verif.Qaoa`; also, floating-point numbers are real numbers (no NaN, no infinities).
-/

namespace Blueqat

/-- The arithmetic of the angles. -/
structure AngleOps where
  /-- `*` and `*=` of two floats (blueqat/vqe.py:128-129, blueqat/pauli.py:607) -/
  mul : ℝ → ℝ → ℝ
  /-- `np.pi` (blueqat/vqe.py:128-129) -/
  pi : ℝ
  /-- `half_pi = pi / 2` (blueqat/pauli.py:28) -/
  halfPi : ℝ

noncomputable section

/-- Exact arithmetic. -/
def AngleOps.exact : AngleOps := ⟨fun x y => x * y, Real.pi, Real.pi / 2⟩

/-- Every operation is rounded by `fl`. -/
def AngleOps.rounded (fl : ℝ → ℝ) : AngleOps := ⟨fun x y => fl (x * y), fl Real.pi, fl (fl Real.pi / 2)⟩

variable {V M C B A R : Type}

/-- The gates `append_to_circuit(circuit, t)` appends (blueqat/pauli.py:596-615), as `evolutionGates`. -/
def flEvolutionGates (O : AngleOps) (ops : List POp) (coeff t : ℝ) : List Gate :=
  match ops.getLast? with
  | none => []
  | some last =>
    basisGates (-O.halfPi) ops ++ ladderUp ops ++ [on1 (.rz (O.mul (O.mul (-2) coeff) t)) last.n] ++ ladderDown ops ++
      basisGates O.halfPi ops

/-- `Term.get_time_evolution()` (blueqat/pauli.py:584-616), as `PTerm.evolutionClosure`. -/
def PTerm.flEvolutionClosure (P : PauliOps) (O : AngleOps) (t : PTerm) : Except PyErr (ℝ → List Gate) :=
  let term := t.flSimplify P
  if term.coeff.im ≠ 0 then .error .valueError
  else .ok (flEvolutionGates O term.ops term.coeff.re)

/-- `value.get_time_evolution()`: only terms have this method. -/
def PVal.flEvolutionClosure (P : PauliOps) (O : AngleOps) : PVal → Except PyErr (ℝ → List Gate)
  | .term t => t.flEvolutionClosure P O
  | _ => .error .attributeError

/-- `[term.get_time_evolution() for term in terms]` (blueqat/vqe.py:116-117). -/
def flEvolutionClosures (P : PauliOps) (O : AngleOps) : List PVal → Except PyErr (List (ℝ → List Gate))
  | [] => .ok []
  | t :: ts => do
    let f ← t.flEvolutionClosure P O
    let fs ← flEvolutionClosures P O ts
    .ok (f :: fs)

/-- `QaoaAnsatz(hamiltonian, step, init_circuit, mixer)` (blueqat/vqe.py:86-117), as `QaoaAnsatz.new`. -/
def QaoaAnsatz.flNew (kit : Kit C B A R) (isAttr : String → Bool) (P : PauliOps) (O : AngleOps) (hamiltonian : PVal) (step : ℕ)
    (initCircuit : Option ℕ) (mixer : Option (List PVal)) (a : A) (w : World V M C B) :
    World V M C B × Except PyErr QaoaAnsatz :=
  if hamiltonian.hasMaxN = false then (w, .error .attributeError)
  else
    let ham := hamiltonian.toExpr.flSimplify P
    if ham.flIsAllTermsCommutable P = false then (w, .error .valueError)
    else
      match QaoaAnsatz.chooseInit kit isAttr ham.nQubits initCircuit mixer w with
      | (w, .error e) => (w, .error e)
      | (w, .ok (i, n)) =>
        match w.step kit isAttr (.makeCache i none a) with
        | (w, .error e) => (w, .error e)
        | (w, .ok _) =>
          match flEvolutionClosures P O (ham.terms.map .term) with
          | .error e => (w, .error e)
          | .ok evos =>
            match flEvolutionClosures P O (mixer.getD []) with
            | .error e => (w, .error e)
            | .ok mixEvos => (w, .ok ⟨ham, step * 2, n, step, i, mixer, evos, mixEvos⟩)

/-- The statements of one step (blueqat/vqe.py:127-136), as `QaoaAnsatz.stepGates`. -/
def QaoaAnsatz.flStepGates (O : AngleOps) (q : QaoaAnsatz) (beta gamma : ℝ) : List Gate :=
  let beta := O.mul beta O.pi
  let gamma := O.mul gamma (O.mul 2 O.pi)
  q.timeEvolutions.flatMap (fun evo => evo gamma) ++
    match q.mixer with
    | none => [onAll (.rx beta)]
    | some _ => q.mixerTimeEvolutions.flatMap (fun evo => evo beta)

/-- `get_circuit(params)` (blueqat/vqe.py:123-137), as `QaoaAnsatz.getCircuit`. -/
def QaoaAnsatz.flGetCircuit (kit : Kit C B A R) (isAttr : String → Bool) (O : AngleOps) (q : QaoaAnsatz) (params : List ℝ)
    (w : World V M C B) : World V M C B × Except PyErr ℕ :=
  match w.step kit isAttr (.copy q.initCircuit true true) with
  | (w, .error e) => (w, .error e)
  | (w, .ok (.circuit c)) =>
    let betas := params.take q.step
    let gammas := params.drop q.step
    match World.statements kit isAttr c ((betas.zip gammas).flatMap (fun p => q.flStepGates O p.1 p.2)) w with
    | (w, .error e) => (w, .error e)
    | (w, .ok _) => (w, .ok c)
  | (w, .ok _) => (w, .error .typeError)

/-- The function that `get_objective(sampler=None)` returns (blueqat/vqe.py:66-82) for this ansatz: the circuit of the
parameters is run by `R` and its energy taken with the matrix `make_sparse` returned. `w` is the world at the time of the call.
`circuit.make_cache()` is left out: a cache changes neither the amplitudes nor the random numbers (C96). -/
def QaoaAnsatz.flObjective (kit : Kit C B A R) (isAttr : String → Bool) (P : PauliOps) (O : AngleOps) (q : QaoaAnsatz)
    (run : StateRunner) (sparse : PyMatrix) (w : World V M C B) (params : List ℝ) (rnd : ℕ → ℝ) : Except PyErr (ℝ × (ℕ → ℝ)) :=
  match q.flGetCircuit kit isAttr O params w with
  | (_, .error e) => .error e
  | (w, .ok c) => flGetEnergySparse P run sparse ⟨(w.circs c).n, w.lists (w.circs c).ops⟩ rnd

end

end Blueqat
