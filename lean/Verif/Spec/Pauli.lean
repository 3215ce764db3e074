import Verif.Spec.Quantum
import Verif.Pauli
import Mathlib.Algebra.Module.LinearMap.End
import Mathlib.Algebra.BigOperators.Group.List.Basic
import Mathlib.Tactic.Ring
import Mathlib.Tactic.SplitIfs

/-!
# Specification: what Pauli operators, terms and expressions denote

Only the *syntax* of the model is used: Pauli objects, `(ops, coeff)` pairs, lists of them. They denote linear
operators on state vectors, which form a ring.
-/

namespace Spec

open Blueqat (PLetter POp Pauli PTerm PExpr PyNum PVal)

noncomputable section

/-- Linear operators on state vectors: a ring with scalar multiplication. -/
abbrev Operator := Module.End ℂ Vec

/-- A 2x2 matrix on qubit `n`, as an operator. -/
def matAt (M : M2) (n : ℕ) : Operator where
  toFun := app M n
  map_add' ψ χ := by
    funext i; simp only [app, Pi.add_apply]; split_ifs <;> ring
  map_smul' z ψ := by
    funext i; simp only [app, Pi.smul_apply, smul_eq_mul, RingHom.id_apply]; split_ifs <;> ring

/-- The textbook Pauli matrices. -/
def letterM : PLetter → M2
  | .X => mX
  | .Y => mY
  | .Z => mZ

/-- A Pauli operator on its qubit. -/
def opOp (o : POp) : Operator := matAt (letterM o.p) o.n

/-- `I` is the identity. -/
def pauliOp : Pauli → Operator
  | .I => 1
  | .op o => opOp o

/-- A product of Pauli operators, from left to right. -/
def wordOp (ops : List POp) : Operator := (ops.map opOp).prod

/-- `coeff * ops[0] * ops[1] * ...`. -/
def termOp (t : PTerm) : Operator := t.coeff • wordOp t.ops

/-- The sum of the terms. -/
def exprOp (e : PExpr) : Operator := (e.terms.map termOp).sum

/-- A number denotes the multiple of the identity. -/
def valOp : PVal → Operator
  | .num x => x.val • (1 : Operator)
  | .pauli p => pauliOp p
  | .term t => termOp t
  | .expr e => exprOp e

/-- Arithmetic formulas a user can write: numbers and Pauli operators combined by `-a`, `a + b`, `a - b`, `a * b`,
division by a number, and powers. -/
inductive Formula where
  | num (x : PyNum)
  | pauli (p : Pauli)
  | neg (a : Formula)
  | add (a b : Formula)
  | sub (a b : Formula)
  | mul (a b : Formula)
  | div (a : Formula) (x : PyNum)
  | pow (a : Formula) (n : ℕ)

/-- The operator a formula denotes, in the ring of operators. -/
def Formula.op : Formula → Operator
  | .num x => x.val • (1 : Operator)
  | .pauli p => pauliOp p
  | .neg a => -a.op
  | .add a b => a.op + b.op
  | .sub a b => a.op - b.op
  | .mul a b => a.op * b.op
  | .div a x => (x.val)⁻¹ • a.op
  | .pow a n => a.op ^ n

/-- The class of Python object a formula evaluates to. -/
inductive Kind where
  | num | pauli | term | expr
  deriving DecidableEq

/-- A sum is an expression (unless both are numbers), a product with an expression is one, any other product is a
term (unless both are numbers). -/
def Formula.kind : Formula → Kind
  | .num _ => .num
  | .pauli _ => .pauli
  | .neg a => if a.kind = .pauli then .term else a.kind
  | .add a b | .sub a b => if a.kind = .num ∧ b.kind = .num then .num else .expr
  | .mul a b =>
    if a.kind = .num ∧ b.kind = .num then .num
    else if a.kind = .expr ∨ b.kind = .expr then .expr else .term
  | .div a _ => if a.kind = .pauli then .term else a.kind
  | .pow a _ => a.kind

/-- The formula is built from products, powers, signs and numbers only. -/
def Formula.IsProduct : Formula → Prop
  | .num _ | .pauli _ => True
  | .neg a | .div a _ | .pow a _ => a.IsProduct
  | .mul a b => a.IsProduct ∧ b.IsProduct
  | .add _ _ | .sub _ _ => False

/-- No term is raised to a power of 2 or more. (Powers of numbers and of sums may occur.) -/
def Formula.NoTermPower : Formula → Prop
  | .num _ | .pauli _ => True
  | .neg a | .div a _ => a.NoTermPower
  | .add a b | .sub a b | .mul a b => a.NoTermPower ∧ b.NoTermPower
  | .pow a n => a.NoTermPower ∧ (a.kind = .term → n ≤ 1)

/-- No expression is multiplied by a term or a Pauli operator. (By a number or by another expression is fine.) -/
def Formula.NoMixedProduct : Formula → Prop
  | .num _ | .pauli _ => True
  | .neg a | .div a _ | .pow a _ => a.NoMixedProduct
  | .add a b | .sub a b => a.NoMixedProduct ∧ b.NoMixedProduct
  | .mul a b => a.NoMixedProduct ∧ b.NoMixedProduct ∧
      (a.kind = .expr → b.kind = .num ∨ b.kind = .expr) ∧ (b.kind = .expr → a.kind = .num ∨ a.kind = .expr)

/-- Python accepts the formula: no division by zero, no division of a term or an expression by a complex number, and
no power of a bare Pauli operator. -/
def Formula.Accepted : Formula → Prop
  | .num _ | .pauli _ => True
  | .neg a => a.Accepted
  | .add a b | .sub a b | .mul a b => a.Accepted ∧ b.Accepted
  | .div a x => a.Accepted ∧ x.val ≠ 0 ∧ (a.kind = .term ∨ a.kind = .expr → ∃ r, x = .real r)
  | .pow a _ => a.Accepted ∧ a.kind ≠ .pauli

end

end Spec
