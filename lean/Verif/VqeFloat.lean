import Verif.Vqe
import Verif.NpFloat
import Verif.NbFloat

/-!
# Energies and outcomes in rounded arithmetic (blueqat/vqe.py)

As in `Verif.Vqe`, but with the arithmetic of the machine: a parameter `V : VqeOps` for the operations of blueqat/vqe.py,
and a function that runs circuits, which is that of the numpy or of the numba backend in rounded arithmetic. All line
numbers are of blueqat/vqe.py unless another file is named. Simplifications: floating-point numbers are real numbers (no
NaN, no infinities, no signed zero); the coefficients of the Hamiltonian are the numbers it holds.
-/

namespace Blueqat

/-- The arithmetic of `expect` (lines 227-231) and `get_energy` (lines 46-60). -/
structure VqeOps where
  /-- `x ** 2` of a float (line 228) -/
  sq : ℝ → ℝ
  /-- `+`, `+=` of floats (lines 228, 230) -/
  add : ℝ → ℝ → ℝ
  /-- `prob * meas.coeff` (lines 57, 59) -/
  scale : ℝ → ℂ → ℂ
  /-- `val += ...` (line 59) -/
  cadd : ℂ → ℂ → ℂ
  /-- `val -= ...` (line 57) -/
  csub : ℂ → ℂ → ℂ

noncomputable section

/-- Exact arithmetic: the operations `Verif.Vqe` uses for lines 46-60, 227-231. -/
def VqeOps.exact : VqeOps where
  sq x := x ^ 2
  add := (· + ·)
  scale p c := p * c
  cadd := (· + ·)
  csub := (· - ·)

/-- Lines 46-60, 227-231 with a rounding `fl` after every operation on floats; `prob` is converted to a complex number
before it is multiplied. numpy and CPython are not part of /repo: this is an assumption about them, used only to show
that the hypotheses on `VqeOps` can be met by floating-point arithmetic. -/
def VqeOps.rounded (fl : ℝ → ℝ) : VqeOps where
  sq x := fl (x * x)
  add x y := fl (x + y)
  scale p c := (FloatOps.rounded fl id id).mul p c
  cadd := (FloatOps.rounded fl id id).add
  csub := (FloatOps.rounded fl id id).sub

/-- `circuit.run()` or `circuit.run(returns="statevector")` (lines 167, 238): the state vector and the random numbers
left. -/
abbrev StateRunner := OpsVal → (ℕ → ℝ) → Except PyErr (List ℂ × (ℕ → ℝ))

/-- `circuit.run(returns="statevector")` (lines 167, 238) on a new numpy backend in rounded arithmetic
(blueqat/backends/numpy_backend.py:87-131). -/
def flNpStatevector (F : FloatOps) : StateRunner := fun c rnd =>
  asStatevector (flRunArgs F c.n c.ops NpBackend.new none (some "statevector") rnd).2

/-- `circuit.run(returns="statevector")` (lines 167, 238) on a new numba backend in rounded arithmetic
(blueqat/backends/_numba_backend_impl.py:387-439), with the default `enable_cache=True`. -/
def flNbStatevector (K : NbFloat) : StateRunner := fun c rnd =>
  asStatevector (flNbRunArgs K c.n c.ops NbBackend.new none (some "statevector") true rnd none).2

variable (V : VqeOps)

open Classical in
/-- The loop over the amplitudes (lines 227-231): as `expectLoop`. -/
def flExpectLoop (mask : ℕ) : ℕ → List ℂ → PyDict ℕ ℝ → PyDict ℕ ℝ
  | _, [], cnt => cnt
  | i, v :: vs, cnt =>
    let p := V.add (V.sq v.re) (V.sq v.im)
    flExpectLoop mask (i + 1) vs
      (if p ≠ 0 then cnt.set (i &&& mask) (V.add ((cnt.get (i &&& mask)).getD 0) p) else cnt)

/-- `expect(qubits, meas)` (lines 213-232): as `Verif.Vqe.expect`. -/
def flExpect (qubits : List ℂ) (meas : List ℤ) : Except PyErr (PyDict (List ℕ) ℝ) := do
  let mask ← expectMask meas 0
  let cnt := flExpectLoop V mask 0 qubits []
  .ok (cnt.foldl (fun r p => r.set (expectKey meas p.1) p.2) [])

/-- `non_sampling_sampler(circuit, meas)` (lines 234-238). -/
def flNonSampling (R : StateRunner) : Sampler := fun c meas rnd =>
  (c, do
    let (q, rnd) ← R c rnd
    let d ← flExpect V q meas
    .ok (d, rnd))

/-- `for bits, prob in measured.items(): ...` (lines 55-59): as `energySum`. -/
def flEnergySum (coeff : ℂ) : PyDict (List ℕ) ℝ → ℂ → ℂ
  | [], val => val
  | (bits, prob) :: rest, val =>
    if bits.sum % 2 ≠ 0 then flEnergySum coeff rest (V.csub val (V.scale prob coeff))
    else flEnergySum coeff rest (V.cadd val (V.scale prob coeff))

/-- The loop over the terms (lines 47-59): as `energyLoop`. -/
def flEnergyLoop (sampler : Sampler) (circuit : OpsVal) : List PTerm → ℂ → (ℕ → ℝ) → Except PyErr (ℂ × (ℕ → ℝ))
  | [], val, rnd => .ok (val, rnd)
  | meas :: terms, val, rnd => do
    let c ← energyBasis meas.ops circuit
    let (measured, rnd) ← (sampler c (meas.ops.map (fun o => (o.n : ℤ))) rnd).2
    flEnergyLoop sampler circuit terms (flEnergySum V meas.coeff measured val) rnd

/-- `AnsatzBase.get_energy(circuit, sampler)` (lines 44-60): as `getEnergy`. -/
def flGetEnergy (hamiltonian : PExpr) (circuit : OpsVal) (sampler : Sampler) (rnd : ℕ → ℝ) :
    Except PyErr (ℝ × (ℕ → ℝ)) := do
  let (val, rnd) ← flEnergyLoop V sampler circuit hamiltonian.terms 0 rnd
  .ok (val.re, rnd)

end

end Blueqat
