import Verif.Spec.Evolution

/-!
# Specification: QAOA
-/

namespace Spec

open Blueqat (POp PTerm)

noncomputable section

/-- The product of operators of which the first acts first. -/
def inOrder : List Operator → Operator
  | [] => 1
  | A :: As => inOrder As * A

/-- `U t` is the product of the evolutions `exp(i t H)` of the given Hamiltonians, of which the first acts first. -/
def IsProductEvolution (Hs : List Operator) (U : ℝ → Operator) : Prop :=
  ∃ Us : List (ℝ → Operator), List.Forall₂ IsEvolution Hs Us ∧ ∀ t, U t = inOrder (Us.map (fun V => V t))

/-- The alternating operator: for every step `(β, γ)` the cost evolution with `2πγ` and then the mixer with `πβ`. -/
def qaoaOp (cost mixer : ℝ → Operator) (steps : List (ℝ × ℝ)) : Operator :=
  inOrder (steps.map (fun p => mixer (Real.pi * p.1) * cost (2 * Real.pi * p.2)))

/-- The Hamiltonians `-X/2` on the qubits below `n`, whose evolution is `rx`. -/
def xMixer (n : ℕ) : List Operator := (List.range n).map (fun q => (-(1 / 2) : ℂ) • matAt mX q)

/-- The operator of a term, with a minus sign if it has an odd number of `Y`. -/
def signedOp (t : PTerm) : Operator := ((-1 : ℂ) ^ yCount t.ops) • termOp t

/-- One more than the largest qubit number in any of the products (0 if there is none). -/
def qubitsOfAll (ws : List (List POp)) : ℕ := ws.foldr (fun w m => max (qubitsOf w) m) 0

end

end Spec
