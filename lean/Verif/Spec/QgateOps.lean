import Verif.Spec.Circuit
import Verif.Qgate

/-!
# Specification: what qgate's operators do

Of the model only the operator objects (`QType`, `QOp`) are used. The matrices are what qgate documents for its gate types;
qgate is not part of this repository, so this is an assumption, and the global factor of its `U` and `U2` is left open.
-/

namespace Spec

open Blueqat (QType QOp G1 G2 G3 Gate)

noncomputable section

/-- A multiple of a matrix. -/
def M2.scale (z : ℂ) (M : M2) : M2 := ⟨z * M.a, z * M.b, z * M.c, z * M.d⟩

/-- The conjugate transpose. -/
def M2.adjoint (M : M2) : M2 := ⟨star M.a, star M.c, star M.b, star M.d⟩

/-- `mat` gives every gate type of the table its matrix. `ph φ lam` is the factor of `U2` and `U`: 1 if they have
determinant 1, `e^{i(φ + lam)/2}` if their upper left entry is real. -/
structure QgateMatrices (mat : QType → List ℝ → M2) (ph : ℝ → ℝ → ℂ) : Prop where
  id : mat .ID [] = mI
  x : mat .X [] = mX
  y : mat .Y [] = mY
  z : mat .Z [] = mZ
  h : mat .H [] = mH
  t : mat .T [] = mT
  s : mat .S [] = mS
  rx : ∀ θ, mat .RX [θ] = mRX θ
  ry : ∀ θ, mat .RY [θ] = mRY θ
  rz : ∀ θ, mat .RZ [θ] = mRZ θ
  u1 : ∀ θ, mat .U1 [θ] = mPhase θ
  u2 : ∀ φ lam, mat .U2 [φ, lam] = (mU3 (Real.pi / 2) φ lam).scale (ph φ lam)
  u : ∀ θ φ lam, mat .U [θ, φ, lam] = (mU3 θ φ lam).scale (ph φ lam)

/-- What an operator does to the state vector: its matrix, or the adjoint of it, on the register, under all the controls. -/
def opAction (mat : QType → List ℝ → M2) : QOp → Vec → Vec
  | .gate ty params adjoint ctrls qreg =>
    ctrls.foldr ctrl (app (if adjoint then (mat ty params).adjoint else mat ty params) qreg)
  | .multi _ _ a b => swapOp a b
  | .measure _ _ => id

/-- The factor of an operation that comes from the convention for `U2` and `U`. -/
def uFactor (ph : ℝ → ℝ → ℂ) : Elem → ℂ
  | .one (.u2 φ lam) _ => ph φ lam
  | .one (.u3 _ φ lam) _ => ph φ lam
  | _ => 1

/-- The operator performs the operation: a measurement of the qubit into the reference with the number of the qubit, or
the unitary of the operation (times its factor). -/
def Performs (mat : QType → List ℝ → M2) (ph : ℝ → ℝ → ℂ) (e : Elem) (op : QOp) : Prop :=
  match e with
  | .meas q => op = .measure q q
  | .reset _ => False
  | e => (∀ r q, op ≠ .measure r q) ∧ ∀ ψ i, opAction mat op ψ i = uFactor ph e * e.unitary phDoc ψ i

/-- The gates of the table. -/
def QgateSupports : Gate → Prop
  | .g1 _ _ => True
  | .g2 k _ => k ≠ .cy ∧ k ≠ .ch ∧ ∀ θ, k ≠ .rxx θ ∧ k ≠ .ryy θ ∧ k ≠ .rzz θ
  | .g3 k _ => k = .ccx
  | .measure _ => True
  | .reset _ => False

/-- The gate is not a controlled `U2` or `U` whose factor is not 1. -/
def FactorOne (ph : ℝ → ℝ → ℂ) : Gate → Prop
  | .g2 (.cu2 φ lam) _ => ph φ lam = 1
  | .g2 (.cu3 _ φ lam) _ => ph φ lam = 1
  | _ => True

/-- If it is a swap, its subscript is a pair of numbers. -/
def PlainSwap : Gate → Prop
  | .g2 .swap T => ∃ a b : ℤ, T = .tup [.atom (.int a), .atom (.int b)]
  | _ => True

/-- The matrices with the given factors. -/
def qgateMatrix (ph : ℝ → ℝ → ℂ) : QType → List ℝ → M2
  | .X, _ => mX
  | .Y, _ => mY
  | .Z, _ => mZ
  | .H, _ => mH
  | .T, _ => mT
  | .S, _ => mS
  | .RX, [θ] => mRX θ
  | .RY, [θ] => mRY θ
  | .RZ, [θ] => mRZ θ
  | .U1, [θ] => mPhase θ
  | .U2, [φ, lam] => (mU3 (Real.pi / 2) φ lam).scale (ph φ lam)
  | .U, [θ, φ, lam] => (mU3 θ φ lam).scale (ph φ lam)
  | _, _ => mI

theorem qgateMatrix_ok (ph : ℝ → ℝ → ℂ) : QgateMatrices (qgateMatrix ph) ph := by
  constructor <;> intros <;> rfl

end

end Spec
