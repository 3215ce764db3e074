import Verif.Spec.Circuit

/-!
# Specification: what the gate names of a circuit mean

The table of the documentation: a name and its parameters give an operation on one, two or three qubits, a measurement
or a reset.
-/

namespace Spec

noncomputable section

/-- Names of one-qubit gates. -/
def oneQubit : String → List ℝ → Option M2
  | "i", [] => some mI
  | "x", [] => some mX
  | "y", [] => some mY
  | "z", [] => some mZ
  | "h", [] => some mH
  | "t", [] => some mT
  | "tdg", [] => some mTdg
  | "s", [] => some mS
  | "sdg", [] => some mSdg
  | "rx", [θ] => some (mRX θ)
  | "ry", [θ] => some (mRY θ)
  | "rz", [θ] => some (mRZ θ)
  | "r", [θ] => some (mPhase θ)
  | "phase", [θ] => some (mPhase θ)
  | "u1", [lam] => some (mRZ lam)
  | "u2", [φ, lam] => some (mU3 (Real.pi / 2) φ lam)
  | "u3", [θ, φ, lam] => some (mU3 θ φ lam)
  | _, _ => none

/-- Names of two-qubit gates. The first qubit is the control. -/
def twoQubit : String → List ℝ → Option (ℕ → ℕ → Vec → Vec)
  | "cx", [] => some fun c t => ctrl c (app mX t)
  | "cnot", [] => some fun c t => ctrl c (app mX t)
  | "cy", [] => some fun c t => ctrl c (app mY t)
  | "cz", [] => some fun c t => ctrl c (app mZ t)
  | "ch", [] => some fun c t => ctrl c (app mH t)
  | "crx", [θ] => some fun c t => ctrl c (app (mRX θ) t)
  | "cry", [θ] => some fun c t => ctrl c (app (mRY θ) t)
  | "crz", [θ] => some fun c t => ctrl c (app (mRZ θ) t)
  | "cr", [θ] => some fun c t => ctrl c (app (mPhase θ) t)
  | "cphase", [θ] => some fun c t => ctrl c (app (mPhase θ) t)
  | "cu1", [lam] => some fun c t => ctrl c (app (mPhase lam) t)
  | "cu2", [φ, lam] => some fun c t => ctrl c (app (mU3 (Real.pi / 2) φ lam) t)
  | "cu3", [θ, φ, lam] => some fun c t => ctrl c (app (mU3 θ φ lam) t)
  | "swap", [] => some fun a b => swapOp a b
  | "rxx", [θ] => some fun a b => expPP mX θ a b
  | "ryy", [θ] => some fun a b => expPP mY θ a b
  | "rzz", [θ] => some fun a b => expPP mZ θ a b
  | _, _ => none

/-- Names of three-qubit gates. -/
def threeQubit : String → List ℝ → Option (ℕ → ℕ → ℕ → Vec → Vec)
  | "ccx", [] => some fun a b t => ctrl a (ctrl b (app mX t))
  | "toffoli", [] => some fun a b t => ctrl a (ctrl b (app mX t))
  | "cswap", [] => some fun c a b => ctrl c (swapOp a b)
  | _, _ => none

/-- Names of measurements. -/
def IsMeasureName (name : String) : Prop := name = "measure" ∨ name = "m"

end

end Spec
