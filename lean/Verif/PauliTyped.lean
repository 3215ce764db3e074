import Verif.Qaoa

/-!
# Classes of coefficients (blueqat/pauli.py): `simplify` and `get_time_evolution` once more

In `Verif/Pauli.lean` a coefficient is a complex number. Here it is a Python number, either real (`int`, `float`) or
`complex`: an angle of class `complex` makes the numpy backend raise, even if its imaginary part is zero.
-/

namespace Blueqat

noncomputable section

/-- `Term(ops, coeff)` (pauli.py:363-365) with the class of the coefficient. -/
structure NTerm where
  ops : List POp
  coeff : PyNum

/-- `Expr(terms)` (pauli.py:646-647) likewise. -/
structure NExpr where
  terms : List NTerm

/-- `a * b` of numbers: complex if one of them is. Library behaviour. -/
def PyNum.times (a b : PyNum) : PyNum := PyNum.lift (fun x y => x * y) a b

/-- `a + b` of numbers. Library behaviour. -/
def PyNum.plus (a b : PyNum) : PyNum := PyNum.lift (fun x y => x + y) a b

/-- `_mul_map` (pauli.py:50-60): `1.0` is a float, `1j` and `-1j` are complex. -/
def mulMapN : PLetter → PLetter → PyNum × Option PLetter
  | .X, .X => (.real 1, none)
  | .X, .Y => (.cplx Complex.I, some .Z)
  | .X, .Z => (.cplx (-Complex.I), some .Y)
  | .Y, .X => (.cplx (-Complex.I), some .Z)
  | .Y, .Y => (.real 1, none)
  | .Y, .Z => (.cplx Complex.I, some .X)
  | .Z, .X => (.cplx Complex.I, some .Y)
  | .Z, .Y => (.cplx (-Complex.I), some .X)
  | .Z, .Z => (.real 1, none)

/-- The inner function `mul` of `simplify` (pauli.py:524-529). -/
def simplifyMulN (op1 op2 : Option PLetter) : PyNum × Option PLetter :=
  match op1, op2 with
  | none, op2 => (.real 1, op2)
  | op1, none => (.real 1, op1)
  | some a, some b => mulMapN a b

/-- The product of the letters of one qubit (pauli.py:539-544), starting with the float `1.0`. -/
def simplifyQubitN : List PLetter → PyNum × Option PLetter
  | [] => (.real 1, none)
  | p :: ps => ps.foldl (fun (s : PyNum × Option PLetter) q =>
      let r := simplifyMulN s.2 (some q)
      (s.1.times r.1, r.2)) (.real 1, some p)

/-- `if new_coeff.imag == 0: new_coeff = new_coeff.real` (pauli.py:546-548): the class becomes float. -/
def castFloat (x : PyNum) : PyNum := if x.val.im = 0 then .real x.val.re else x

/-- The loop over the qubits (pauli.py:538-550). -/
def simplifyLoopN (before : PyDict ℕ (List PLetter)) : List ℕ → PyNum × List POp → PyNum × List POp
  | [], s => s
  | n :: ns, (c, ops) =>
    let r := simplifyQubitN ((before.get n).getD [])
    let c := castFloat (c.times r.1)
    let ops := match r.2 with
      | none => ops
      | some p => ops ++ [⟨p, n⟩]
    simplifyLoopN before ns (c, ops)

/-- `Term.simplify()` (pauli.py:522-551). -/
def NTerm.simplify (t : NTerm) : NTerm :=
  let before := simplifyBefore t.ops
  let r := simplifyLoopN before (pySorted (before.map Prod.fst)) (t.coeff, [])
  ⟨r.2, r.1⟩

/-- `d[term.ops] += term.coeff` with `defaultdict(float)` (pauli.py:860-863). -/
def dictAddN (d : PyDict (List POp) PyNum) (t : NTerm) : PyDict (List POp) PyNum :=
  d.set t.ops (((d.get t.ops).getD (.real 0)).plus t.coeff)

/-- `Expr.simplify()` (pauli.py:858-865). A number is true if it is not zero. -/
def NExpr.simplify (e : NExpr) : NExpr :=
  let d := (e.terms.map NTerm.simplify).foldl dictAddN []
  ⟨(((sortByRepr (d.map Prod.fst)).filter (fun k => decide (((d.get k).getD (.real 0)).val ≠ 0))).map
    (fun k => (⟨k, (d.get k).getD (.real 0)⟩ : NTerm))).filter (fun t => decide (t.coeff.val ≠ 0))⟩

/-- An operation that a time evolution appends: its angle may be of class complex. -/
inductive NGate where
  | plain (g : Gate)
  | rz (angle : PyNum) (n : ℕ)

/-- The inner function `append_to_circuit(circuit, t)` (pauli.py:596-615); `-2 * coeff * t` has the class of `coeff`. -/
def evolutionGatesN (ops : List POp) (coeff : PyNum) (t : ℝ) : List NGate :=
  match ops.getLast? with
  | none => []
  | some last =>
    (basisGates (-(Real.pi / 2)) ops ++ ladderUp ops).map .plain ++
      [.rz (((PyNum.real (-2)).times coeff).times (.real t)) last.n] ++
      (ladderDown ops ++ basisGates (Real.pi / 2) ops).map .plain

/-- `Term.get_time_evolution()` (pauli.py:584-616). -/
def NTerm.getTimeEvolution (t : NTerm) : Except PyErr (ℝ → List NGate) :=
  let term := t.simplify
  if term.coeff.val.im ≠ 0 then .error .valueError
  else .ok (evolutionGatesN term.ops term.coeff)

/-- `[term.get_time_evolution() for term in self.hamiltonian]` (vqe.py:116). -/
def evolutionClosuresN : List NTerm → Except PyErr (List (ℝ → List NGate))
  | [] => .ok []
  | t :: ts => do
    let f ← t.getTimeEvolution
    let fs ← evolutionClosuresN ts
    .ok (f :: fs)

/-- What the numpy backend makes of an operation: `math.cos(gate.theta * 0.5)` (numpy_backend.py:231-233) raises TypeError for a
complex angle. -/
def NGate.load : NGate → Except PyErr Gate
  | .plain g => .ok g
  | .rz (.real x) n => .ok (on1 (.rz x) n)
  | .rz (.cplx _) _ => .error .typeError

/-- The operations of a circuit, in order. -/
def loadAll : List NGate → Except PyErr (List Gate)
  | [] => .ok []
  | g :: gs => do
    let x ← g.load
    let xs ← loadAll gs
    .ok (x :: xs)

end

end Blueqat
