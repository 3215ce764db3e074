import Verif.Spec.VqeRun

/-!
# Specification: cost functions as Hamiltonians
-/

namespace Spec

noncomputable section

/-- The operator that multiplies the amplitude of every basis state `k` by `d k`. -/
def diagOp (d : ℕ → ℂ) : Operator where
  toFun ψ := fun k => d k * ψ k
  map_add' ψ χ := by funext k; simp [mul_add]
  map_smul' c ψ := by funext k; simp; ring

/-- The cost function `d` of the basis states as a Hamiltonian. -/
def costOp (d : ℕ → ℝ) : Operator := diagOp (fun k => (d k : ℂ))

/-- The evolution under `costOp d`: the amplitude of the basis state `k` gets the phase `exp(i t d(k))`. -/
def costPhases (d : ℕ → ℝ) (t : ℝ) : Operator := diagOp (fun k => Complex.exp (Complex.I * (t * d k)))

/-- The mean of the cost function over the outcomes of measuring the first `n` qubits. -/
def meanCost (n : ℕ) (d : ℕ → ℝ) (ψ : Vec) : ℝ := ∑ k ∈ Finset.range (2 ^ n), ‖ψ k‖ ^ 2 * d k

/-- `rx(t)` on every one of the first `n` qubits: the product of `exp(-i t X/2) = cos(t/2) - i sin(t/2) X`. -/
def rxLayer (n : ℕ) (t : ℝ) : Operator := inOrder ((List.range n).map (fun q => expI (-(t / 2)) (matAt mX q)))

/-- The state QAOA prepares for the cost function `d` on `n` qubits from the parameters `p` (first the parameters of the
mixers, then those of the costs). -/
def qaoaState (n step : ℕ) (d : ℕ → ℝ) (p : List ℝ) : Vec :=
  qaoaOp (costPhases d) (rxLayer n) ((p.take step).zip (p.drop step)) (plusState n)

/-- `ks` are the `m` most likely outcomes of measuring the first `n` qubits, most likely first; all outcomes that are possible
if these are fewer. -/
structure MostLikely (n : ℕ) (ψ : Vec) (m : ℕ) (ks : List ℕ) : Prop where
  nodup : ks.Nodup
  possible : ∀ k ∈ ks, k < 2 ^ n ∧ ψ k ≠ 0
  sorted : ks.Pairwise (fun a b => ‖ψ b‖ ^ 2 ≤ ‖ψ a‖ ^ 2)
  most : ∀ k ∈ ks, ∀ j < 2 ^ n, j ∉ ks → ‖ψ j‖ ^ 2 ≤ ‖ψ k‖ ^ 2
  length_le : ks.length ≤ m
  all : ks.length < m → ∀ j < 2 ^ n, ψ j ≠ 0 → j ∈ ks

end

end Spec
