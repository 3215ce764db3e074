import Verif.Spec.Quantum
import Verif.Spec.Targets
import Verif.Gate

/-!
# Specification: meaning of gates and circuits

Only the *syntax* of the model is used (gate kinds and subscripts). A gate on a register of `n` qubits denotes
a list of elementary operations on qubit numbers; an elementary operation transforms a machine state made of
amplitudes, classical bits and the remaining random numbers.
-/

namespace Spec

open Blueqat (G1 G2 G3 Gate Targets)
open Complex

noncomputable section

/-- Textbook matrix of a one-qubit gate. -/
def matrix1 : G1 → M2
  | .i => mI
  | .x => mX
  | .y => mY
  | .z => mZ
  | .h => mH
  | .t => mT
  | .tdg => mTdg
  | .s => mS
  | .sdg => mSdg
  | .rx θ => mRX θ
  | .ry θ => mRY θ
  | .rz θ => mRZ θ
  | .phase θ => mPhase θ
  | .u1 lam => mRZ lam
  | .u2 φ lam => mU3 (Real.pi / 2) φ lam
  | .u3 θ φ lam => mU3 θ φ lam

/-- Textbook action of a two-qubit gate on control `c` and target `t`.
`ph lam` is the global factor of `cu1(lam)`: documented is `1` (CU1 is CPhase). -/
def op2 (ph : ℝ → ℂ) : G2 → ℕ → ℕ → Vec → Vec
  | .cx, c, t => ctrl c (app mX t)
  | .cz, c, t => ctrl c (app mZ t)
  | .cy, c, t => ctrl c (app mY t)
  | .ch, c, t => ctrl c (app mH t)
  | .crx θ, c, t => ctrl c (app (mRX θ) t)
  | .cry θ, c, t => ctrl c (app (mRY θ) t)
  | .crz θ, c, t => ctrl c (app (mRZ θ) t)
  | .cphase θ, c, t => ctrl c (app (mPhase θ) t)
  | .rxx θ, c, t => expPP mX θ c t
  | .ryy θ, c, t => expPP mY θ c t
  | .rzz θ, c, t => expPP mZ θ c t
  | .swap, c, t => swapOp c t
  | .cu1 lam, c, t => fun ψ i => ph lam * ctrl c (app (mPhase lam) t) ψ i
  | .cu2 φ lam, c, t => ctrl c (app (mU3 (Real.pi / 2) φ lam) t)
  | .cu3 θ φ lam, c, t => ctrl c (app (mU3 θ φ lam) t)

/-- Textbook action of a three-qubit gate. -/
def op3 : G3 → ℕ → ℕ → ℕ → Vec → Vec
  | .ccx, a, b, t => ctrl a (ctrl b (app mX t))
  | .ccz, a, b, t => ctrl a (ctrl b (app mZ t))
  | .cswap, c, a, b => ctrl c (swapOp a b)

/-- An elementary operation on numbered qubits. -/
inductive Elem where
  | one (k : G1) (t : ℕ)
  | two (k : G2) (c t : ℕ)
  | three (k : G3) (a b c : ℕ)
  | meas (t : ℕ)
  | reset (t : ℕ)

/-- The operation addresses only qubits below `n`, and different ones. -/
def Elem.Valid (n : ℕ) : Elem → Prop
  | .one _ t => t < n
  | .two _ c t => c < n ∧ t < n ∧ c ≠ t
  | .three _ a b c => a < n ∧ b < n ∧ c < n ∧ a ≠ b ∧ a ≠ c ∧ b ≠ c
  | .meas t => t < n
  | .reset t => t < n

/-- The operation is a unitary gate. -/
def Elem.IsUnitary : Elem → Prop
  | .meas _ => False
  | .reset _ => False
  | _ => True

/-- Action of a unitary elementary operation on the state vector. -/
def Elem.unitary (ph : ℝ → ℂ) : Elem → Vec → Vec
  | .one k t => app (matrix1 k) t
  | .two k c t => op2 ph k c t
  | .three k a b c => op3 k a b c
  | .meas _ => id
  | .reset _ => id

/-- Machine state: amplitudes, classical bits by qubit number, unused random numbers. -/
structure MState where
  psi : Vec
  creg : ℕ → Bool
  rnd : ℕ → ℝ

/-- The part of the state where qubit `t` has value `b`, rescaled to norm 1. -/
def collapse (n t : ℕ) (b : Bool) (ψ : Vec) : Vec := fun i =>
  if i.testBit t = b then ψ i / (Real.sqrt (prob n t b ψ) : ℝ) else 0

/-- One elementary operation on the machine. A measurement draws one random number `r` and yields 0 iff
`r < P(0)`; a reset draws one too and moves the collapsed qubit to 0. -/
def Elem.step (ph : ℝ → ℂ) (n : ℕ) (e : Elem) (s : MState) : MState :=
  match e with
  | .meas t =>
    if s.rnd 0 < prob n t false s.psi then
      ⟨collapse n t false s.psi, Function.update s.creg t false, fun k => s.rnd (k + 1)⟩
    else
      ⟨collapse n t true s.psi, Function.update s.creg t true, fun k => s.rnd (k + 1)⟩
  | .reset t =>
    if s.rnd 0 < prob n t false s.psi then
      ⟨collapse n t false s.psi, s.creg, fun k => s.rnd (k + 1)⟩
    else
      ⟨app mX t (collapse n t true s.psi), s.creg, fun k => s.rnd (k + 1)⟩
  | e => { s with psi := e.unitary ph s.psi }

/-- A list of operations, first to last. -/
def steps (ph : ℝ → ℂ) (n : ℕ) (es : List Elem) (s : MState) : MState :=
  es.foldl (fun s e => e.step ph n s) s

/-- The unitary of a list of operations, first to last. -/
def unitaries (ph : ℝ → ℂ) (es : List Elem) (ψ : Vec) : Vec :=
  es.foldl (fun ψ e => e.unitary ph ψ) ψ

/-- The operations a gate object denotes on `n` qubits. -/
def GateDenotes (n : ℕ) : Gate → List Elem → Prop
  | .g1 k T, es => ∃ L : List ℕ, TargetsDenote n T (L.map (fun q : ℕ => (q : Int))) ∧ es = L.map (Elem.one k)
  | .measure T, es => ∃ L : List ℕ, TargetsDenote n T (L.map (fun q : ℕ => (q : Int))) ∧ es = L.map Elem.meas
  | .reset T, es => ∃ L : List ℕ, TargetsDenote n T (L.map (fun q : ℕ => (q : Int))) ∧ es = L.map Elem.reset
  | .g2 k T, es => ∃ L : List (ℕ × ℕ),
      PairsDenote n T (L.map (fun p : ℕ × ℕ => ((p.1 : Int), (p.2 : Int)))) ∧ es = L.map (fun p => .two k p.1 p.2)
  | .g3 k T, es => ∃ a b c : ℕ,
      T = .tup [.atom (.int a), .atom (.int b), .atom (.int c)] ∧ es = [.three k a b c]

/-- The operations a list of gate objects denotes. -/
def GatesDenote (n : ℕ) : List Gate → List Elem → Prop
  | [], es => es = []
  | g :: gs, es => ∃ e₁ e₂, GateDenotes n g e₁ ∧ GatesDenote n gs e₂ ∧ es = e₁ ++ e₂

/-- Start state: all qubits 0, all classical bits 0. -/
def initState (rnd : ℕ → ℝ) : MState := ⟨fun i => if i = 0 then 1 else 0, fun _ => false, rnd⟩

/-- The documented convention: CU1 is CPhase. -/
def phDoc : ℝ → ℂ := fun _ => 1

/-- The convention of the simulators: `cu1(lam)` carries the global phase `e^{-i lam/4}`. -/
def phSim : ℝ → ℂ := fun lam => cis (-(lam / 4))

end

end Spec
