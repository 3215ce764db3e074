import Verif.Pauli
import Verif.Circuit

/-!
# Model of `Term.append_to_circuit` and `Term.get_time_evolution` (blueqat/pauli.py:573-616)

The circuit is the pair of its number of qubits and its operations (`OpsVal`); `circuit.gate[...]` appends an operation
and enlarges the number of qubits. All subscripts here are integers or pairs of integers, so storing the operation
before computing the number of qubits, as `Circuit` does, makes no difference.
-/

namespace Blueqat

noncomputable section

/-- A sequence of statements `circuit.gate[...]`. -/
def OpsVal.appendAll (c : OpsVal) : List Gate → Except PyErr OpsVal
  | [] => .ok c
  | g :: gs => do
    let c ← c.append g
    c.appendAll gs

/-- `getattr(circuit, op.op.lower())` (pauli.py:580-582). No operator of a term is `I`. -/
def PLetter.gate : PLetter → G1
  | .X => .x
  | .Y => .y
  | .Z => .z

/-- `Term.append_to_circuit(circuit, simplify)` (pauli.py:573-582): the loop runs over `term.ops[::-1]`. -/
def PTerm.appendToCircuit (t : PTerm) (simplify : Bool) (c : OpsVal) : Except PyErr OpsVal :=
  let term := if simplify then t.simplify else t
  c.appendAll (term.ops.reverse.map (fun o => on1 o.p.gate o.n))

/-- `for op in ops: if op.op == "X": circuit.h[n] elif op.op == "Y": circuit.rx(angle)[n]` (pauli.py:599-604,
610-615). -/
def basisGates (angle : ℝ) : List POp → List Gate
  | [] => []
  | o :: ops =>
    match o.p with
    | .X => on1 .h o.n :: basisGates angle ops
    | .Y => on1 (.rx angle) o.n :: basisGates angle ops
    | .Z => basisGates angle ops

/-- `for i in range(1, len(ops)): circuit.cx[ops[i-1].n, ops[i].n]` (pauli.py:605-606). -/
def ladderUp (ops : List POp) : List Gate :=
  (List.range' 1 (ops.length - 1)).filterMap (fun i =>
    match ops[i - 1]?, ops[i]? with
    | some a, some b => some (on2 .cx a.n b.n)
    | _, _ => none)

/-- `for i in range(len(ops)-1, 0, -1): circuit.cx[ops[i-1].n, ops[i].n]` (pauli.py:608-609). -/
def ladderDown (ops : List POp) : List Gate :=
  (List.range' 1 (ops.length - 1)).reverse.filterMap (fun i =>
    match ops[i - 1]?, ops[i]? with
    | some a, some b => some (on2 .cx a.n b.n)
    | _, _ => none)

/-- The inner function `append_to_circuit(circuit, t)` (pauli.py:596-615); `coeff` is real here. -/
def evolutionGates (ops : List POp) (coeff t : ℝ) : List Gate :=
  match ops.getLast? with
  | none => []
  | some last =>
    basisGates (-(Real.pi / 2)) ops ++ ladderUp ops ++ [on1 (.rz (-2 * coeff * t)) last.n] ++ ladderDown ops ++
      basisGates (Real.pi / 2) ops

/-- `Term.get_time_evolution()` followed by a call of the function it returns (pauli.py:584-616). The first `Except`
is `get_time_evolution()` itself. -/
def PTerm.getTimeEvolution (t : PTerm) : Except PyErr (OpsVal → ℝ → Except PyErr OpsVal) :=
  let term := t.simplify
  if term.coeff.im ≠ 0 then .error .valueError
  else .ok (fun circuit time => circuit.appendAll (evolutionGates term.ops term.coeff.re time))

end

end Blueqat
