import Verif.Circuit
import Verif.PauliCircuit

/-!
# Model of `QaoaAnsatz` (blueqat/vqe.py:26-137)

Circuits are objects of the `World` of `Verif/Circuit.lean`, named by their number, because the ansatz keeps a reference to
the initial circuit it was given. Floating-point numbers are exact real numbers. `step` is a natural number.
-/

namespace Blueqat

noncomputable section

variable {V M C B A R : Type}

/-- The function `Term.get_time_evolution()` returns (pauli.py:591-616): the gates it appends for a time `t`, in order.
`getTimeEvolution_closure` relates it to `PTerm.getTimeEvolution`, which also appends them. -/
def PTerm.evolutionClosure (t : PTerm) : Except PyErr (ℝ → List Gate) :=
  let term := t.simplify
  if term.coeff.im ≠ 0 then .error .valueError
  else .ok (evolutionGates term.ops term.coeff.re)

/-- `value.get_time_evolution()`: only terms have this method. -/
def PVal.evolutionClosure : PVal → Except PyErr (ℝ → List Gate)
  | .term t => t.evolutionClosure
  | _ => .error .attributeError

/-- `[term.get_time_evolution() for term in terms]` (vqe.py:116-117). -/
def evolutionClosures : List PVal → Except PyErr (List (ℝ → List Gate))
  | [] => .ok []
  | t :: ts => do
    let f ← t.evolutionClosure
    let fs ← evolutionClosures ts
    .ok (f :: fs)

/-- Statements `circuit.gate[...]`, one after the other; the first exception ends the sequence. -/
def World.statements (kit : Kit C B A R) (isAttr : String → Bool) (i : ℕ) :
    List Gate → World V M C B → World V M C B × Except PyErr Unit
  | [], w => (w, .ok ())
  | g :: gs, w =>
    match w.step kit isAttr (.append i g) with
    | (w, .error e) => (w, .error e)
    | (w, .ok _) => World.statements kit isAttr i gs w

/-- The fields of a `QaoaAnsatz` (vqe.py:28-31, 100-117). `sparse` is modelled in `Verif/Vqe.lean`. -/
structure QaoaAnsatz where
  hamiltonian : PExpr
  nParams : ℕ
  nQubits : ℕ
  step : ℕ
  initCircuit : ℕ
  mixer : Option (List PVal)
  timeEvolutions : List (ℝ → List Gate)
  mixerTimeEvolutions : List (ℝ → List Gate)

/-- `hamiltonian.max_n()` (vqe.py:30), which is all the base class needs the argument for: numbers and bare Pauli
operators have no such method. -/
def PVal.hasMaxN : PVal → Bool
  | .num _ => false
  | .pauli _ => false
  | .term _ => true
  | .expr _ => true

/-- `rx(beta)[:]`, `h[:]` (vqe.py:113, 133). -/
def onAll (k : G1) : Gate := .g1 k (.one (.slice none none none))

/-- The initial circuit (vqe.py:106-113): the given one, or a new one. `if init_circuit:` is true for every circuit.
Returns the number of the circuit and of qubits. -/
def QaoaAnsatz.chooseInit (kit : Kit C B A R) (isAttr : String → Bool) (n : ℕ) (initCircuit : Option ℕ)
    (mixer : Option (List PVal)) (w : World V M C B) : World V M C B × Except PyErr (ℕ × ℕ) :=
  match initCircuit with
  | some i => (w, .ok (i, if n < (w.circs i).n then (w.circs i).n else n))
  | none =>
    match mixer with
    | some (_ :: _) => (w, .error .valueError)
    | _ =>
      match w.step kit isAttr (.new n) with
      | (w, .error e) => (w, .error e)
      | (w, .ok (.circuit i)) =>
        match w.step kit isAttr (.append i (onAll .h)) with
        | (w, .error e) => (w, .error e)
        | (w, .ok _) => (w, .ok (i, n))
      | (w, .ok _) => (w, .error .typeError)

/-- `QaoaAnsatz(hamiltonian, step, init_circuit, mixer)` (vqe.py:86-117); `a` are the arguments and random numbers of the
run that fills the cache. `init_circuit` is the number of a circuit that exists, `mixer` a list. -/
def QaoaAnsatz.new (kit : Kit C B A R) (isAttr : String → Bool) (hamiltonian : PVal) (step : ℕ) (initCircuit : Option ℕ)
    (mixer : Option (List PVal)) (a : A) (w : World V M C B) : World V M C B × Except PyErr QaoaAnsatz :=
  if hamiltonian.hasMaxN = false then (w, .error .attributeError)
  else
    let ham := hamiltonian.toExpr.simplify
    if ham.isAllTermsCommutable = false then (w, .error .valueError)
    else
      match QaoaAnsatz.chooseInit kit isAttr ham.nQubits initCircuit mixer w with
      | (w, .error e) => (w, .error e)
      | (w, .ok (i, n)) =>
        match w.step kit isAttr (.makeCache i none a) with
        | (w, .error e) => (w, .error e)
        | (w, .ok _) =>
          match evolutionClosures (ham.terms.map .term) with
          | .error e => (w, .error e)
          | .ok evos =>
            match evolutionClosures (mixer.getD []) with
            | .error e => (w, .error e)
            | .ok mixEvos => (w, .ok ⟨ham, step * 2, n, step, i, mixer, evos, mixEvos⟩)

/-- The statements of one step (vqe.py:127-136). -/
def QaoaAnsatz.stepGates (q : QaoaAnsatz) (beta gamma : ℝ) : List Gate :=
  let beta := beta * Real.pi
  let gamma := gamma * (2 * Real.pi)
  q.timeEvolutions.flatMap (fun evo => evo gamma) ++
    match q.mixer with
    | none => [onAll (.rx beta)]
    | some _ => q.mixerTimeEvolutions.flatMap (fun evo => evo beta)

/-- `get_circuit(params)` (vqe.py:123-137): the number of the new circuit. -/
def QaoaAnsatz.getCircuit (kit : Kit C B A R) (isAttr : String → Bool) (q : QaoaAnsatz) (params : List ℝ)
    (w : World V M C B) : World V M C B × Except PyErr ℕ :=
  match w.step kit isAttr (.copy q.initCircuit true true) with
  | (w, .error e) => (w, .error e)
  | (w, .ok (.circuit c)) =>
    let betas := params.take q.step
    let gammas := params.drop q.step
    match World.statements kit isAttr c ((betas.zip gammas).flatMap (fun p => q.stepGates p.1 p.2)) w with
    | (w, .error e) => (w, .error e)
    | (w, .ok _) => (w, .ok c)
  | (w, .ok _) => (w, .error .typeError)

end

end Blueqat
