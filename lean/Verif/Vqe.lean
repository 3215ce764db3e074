import Verif.NpRun
import Verif.PauliCircuit
import Verif.PauliMatrix
import Verif.Utils

/-!
# Model of `blueqat/vqe.py`: expectation values, samplers and results

A circuit is the value `OpsVal` of its number of qubits and its operations; `c.copy()` is then the value itself (the
theorems C06 on circuit objects justify this). Runs use the numpy backend and no cache (C17, C18 justify this). Random
numbers are a sequence, consumed from the front. Floating-point numbers are exact real or complex numbers.
-/

namespace Blueqat

noncomputable section

/-! ## expect -/

/-- `mask = reduce(lambda acc, v: acc | (1 << v), meas, 0)` (vqe.py:225). A negative shift count is a ValueError. -/
def expectMask : List ℤ → ℕ → Except PyErr ℕ
  | [], acc => .ok acc
  | v :: meas, acc => if v < 0 then .error .valueError else expectMask meas (acc ||| (1 <<< v.toNat))

/-- `to_key(k)` (vqe.py:222-223). By then no element of `meas` is negative. -/
def expectKey (meas : List ℤ) (k : ℕ) : List ℕ := meas.map (fun i => if k &&& (1 <<< i.toNat) ≠ 0 then 1 else 0)

open Classical in
/-- The loop over the amplitudes (vqe.py:227-231); `i` is the index of the first of them. -/
def expectLoop (mask : ℕ) : ℕ → List ℂ → PyDict ℕ ℝ → PyDict ℕ ℝ
  | _, [], cnt => cnt
  | i, v :: vs, cnt =>
    let p := v.re ^ 2 + v.im ^ 2
    expectLoop mask (i + 1) vs (if p ≠ 0 then cnt.set (i &&& mask) ((cnt.get (i &&& mask)).getD 0 + p) else cnt)

/-- `expect(qubits, meas)` (vqe.py:213-232). The inner function `to_mask` (219-220) is never called and is left out. -/
def expect (qubits : List ℂ) (meas : List ℤ) : Except PyErr (PyDict (List ℕ) ℝ) := do
  let mask ← expectMask meas 0
  let cnt := expectLoop mask 0 qubits []
  .ok (cnt.foldl (fun r p => r.set (expectKey meas p.1) p.2) [])

/-! ## Samplers -/

/-- What a sampler is called with: the circuit, which it may modify (the first component of the result is the circuit
afterwards), the qubits to be measured, and the random numbers. -/
abbrev Sampler := OpsVal → List ℤ → (ℕ → ℝ) → OpsVal × Except PyErr (PyDict (List ℕ) ℝ × (ℕ → ℝ))

/-- The value of a run that was asked for the state vector; the other forms do not occur. -/
def asStatevector : Except PyErr (NpVal × (ℕ → ℝ)) → Except PyErr (List ℂ × (ℕ → ℝ))
  | .error e => .error e
  | .ok (.statevector q, rnd) => .ok (q, rnd)
  | .ok _ => .error .typeError

/-- The value of a run that was asked for counts; the other forms do not occur. -/
def asShots : Except PyErr (NpVal × (ℕ → ℝ)) → Except PyErr (Counter × (ℕ → ℝ))
  | .error e => .error e
  | .ok (.shots c, rnd) => .ok (c, rnd)
  | .ok _ => .error .typeError

/-- `circuit.run(returns="statevector")` (vqe.py:167, 238, 262). -/
def runStatevector (c : OpsVal) (rnd : ℕ → ℝ) : Except PyErr (List ℂ × (ℕ → ℝ)) :=
  asStatevector (npRunArgs c.n c.ops NpBackend.new ⟨none, some "statevector", false, rnd⟩).2

/-- `circuit.run()` (vqe.py:64). -/
def runDefault (c : OpsVal) (rnd : ℕ → ℝ) : Except PyErr (List ℂ × (ℕ → ℝ)) :=
  asStatevector (npRunArgs c.n c.ops NpBackend.new ⟨none, none, false, rnd⟩).2

/-- `circuit.run(shots=n_sample, returns="shots")` (vqe.py:252), with no further `run_options`. -/
def runShots (c : OpsVal) (shots : ℕ) (rnd : ℕ → ℝ) : Except PyErr (Counter × (ℕ → ℝ)) :=
  asShots (npRunArgs c.n c.ops NpBackend.new ⟨some shots, some "shots", false, rnd⟩).2

/-- `non_sampling_sampler(circuit, meas)` (vqe.py:234-238). -/
def nonSamplingSampler : Sampler := fun c meas rnd =>
  (c, do
    let (q, rnd) ← runStatevector c rnd
    let d ← expect q meas
    .ok (d, rnd))

/-- `bits[m]`, with Python's negative indices. Library behaviour. -/
def listAt (bits : List ℕ) (m : ℤ) : Except PyErr ℕ :=
  let m := if m < 0 then m + bits.length else m
  if m < 0 then .error .indexError
  else match bits[m.toNat]? with
    | none => .error .indexError
    | some b => .ok b

/-- `reduce_bits(bits, meas)` of the measurement sampler (vqe.py:246-248). -/
def reduceBits (bits : String) (meas : List ℤ) : Except PyErr (List ℕ) := do
  let bits ← bits.toList.reverse.mapM intOfChar
  meas.mapM (listAt bits)

/-- `{reduce_bits(bits, meas): val for bits, val in counter.items()}` (vqe.py:253). -/
def reduceCounter (meas : List ℤ) : Counter → PyDict (List ℕ) ℕ → Except PyErr (PyDict (List ℕ) ℕ)
  | [], acc => .ok acc
  | (bits, val) :: rest, acc => do
    let k ← reduceBits bits meas
    reduceCounter meas rest (acc.set k val)

/-- The function `get_measurement_sampler(n_sample)` returns (vqe.py:245-256), with no further `run_options`.
`circuit.measure[meas]` appends to the circuit it was given. -/
def measurementSampler (nSample : ℕ) : Sampler := fun c meas rnd =>
  match c.append (.measure (.tup (meas.map (fun m => .atom (.int m))))) with
  | .error e => (c, .error e)
  | .ok c =>
    (c, do
      let (counter, rnd) ← runShots c nSample rnd
      let counts ← reduceCounter meas counter []
      .ok (counts.map (fun p => (p.1, (p.2 : ℝ) / nSample)), rnd))

/-- The function `get_state_vector_sampler(n_sample)` returns (vqe.py:260-265). `draw` is
`np.random.multinomial(n_sample, ·)`. `zip(*e.items())` of an empty dict cannot be unpacked. -/
def stateVectorSampler (nSample : ℕ) (draw : List ℝ → List ℕ) : Sampler := fun c meas rnd =>
  (c, do
    let (q, rnd) ← runStatevector c rnd
    let e ← expect q meas
    if e = [] then .error .valueError
    else
      let dists := (draw (e.map Prod.snd)).map (fun k : ℕ => (k : ℝ) / nSample)
      .ok ((List.zip (e.map Prod.fst) dists).foldl (fun r p => r.set p.1 p.2) [], rnd))

/-! ## Energies -/

/-- `for op in meas.ops: if op.op == "X": c.h[op.n] elif op.op == "Y": c.rx(-np.pi / 2)[op.n]` (vqe.py:49-53). -/
def energyBasis : List POp → OpsVal → Except PyErr OpsVal
  | [], c => .ok c
  | op :: ops, c =>
    match op.p with
    | .X => do
      let c ← c.append (on1 .h op.n)
      energyBasis ops c
    | .Y => do
      let c ← c.append (on1 (.rx (-Real.pi / 2)) op.n)
      energyBasis ops c
    | .Z => energyBasis ops c

/-- `for bits, prob in measured.items(): ...` (vqe.py:55-59). -/
def energySum (coeff : ℂ) : PyDict (List ℕ) ℝ → ℂ → ℂ
  | [], val => val
  | (bits, prob) :: rest, val =>
    if bits.sum % 2 ≠ 0 then energySum coeff rest (val - prob * coeff) else energySum coeff rest (val + prob * coeff)

/-- The loop over the terms (vqe.py:47-59). -/
def energyLoop (sampler : Sampler) (circuit : OpsVal) : List PTerm → ℂ → (ℕ → ℝ) → Except PyErr (ℂ × (ℕ → ℝ))
  | [], val, rnd => .ok (val, rnd)
  | meas :: terms, val, rnd => do
    let c ← energyBasis meas.ops circuit
    let (measured, rnd) ← (sampler c (meas.ops.map (fun o => (o.n : ℤ))) rnd).2
    energyLoop sampler circuit terms (energySum meas.coeff measured val) rnd

/-- `AnsatzBase.get_energy(circuit, sampler)` (vqe.py:44-60). -/
def getEnergy (hamiltonian : PExpr) (circuit : OpsVal) (sampler : Sampler) (rnd : ℕ → ℝ) :
    Except PyErr (ℝ × (ℕ → ℝ)) := do
  let (val, rnd) ← energyLoop sampler circuit hamiltonian.terms 0 rnd
  .ok (val.re, rnd)

/-- `mat.dot(vec)` for a matrix given by its rows; ValueError if the sizes do not fit. Library behaviour. -/
def matDot (mat : PyMatrix) (vec : List ℂ) : Except PyErr (List ℂ) :=
  if ∀ r ∈ mat.rows, r.length = vec.length then .ok (mat.rows.map (fun r => (List.zipWith (· * ·) r vec).sum))
  else .error .valueError

/-- `np.vdot(a, b)`: the first argument is conjugated. ValueError for different lengths. Library behaviour. -/
def vdot (a b : List ℂ) : Except PyErr ℂ :=
  if a.length = b.length then .ok (List.zipWith (fun x y => (starRingEnd ℂ) x * y) a b).sum
  else .error .valueError

/-- `sparse_expectation(mat, vec)` (vqe.py:321-332). -/
def sparseExpectation (mat : PyMatrix) (vec : List ℂ) : Except PyErr ℝ := do
  let w ← matDot mat vec
  let z ← vdot vec w
  .ok z.re

/-- `AnsatzBase.get_energy_sparse(circuit)` (vqe.py:62-64), `sparse` being the matrix of `make_sparse`. -/
def getEnergySparse (sparse : PyMatrix) (circuit : OpsVal) (rnd : ℕ → ℝ) : Except PyErr (ℝ × (ℕ → ℝ)) := do
  let (q, rnd) ← runDefault circuit rnd
  let x ← sparseExpectation sparse q
  .ok (x, rnd)

/-- `AnsatzBase.make_sparse()` with the default format (vqe.py:33-38); `junkV`, `junkI` are the contents of
`np.empty`, see `PExpr.toMatrix`. -/
def makeSparse (junkV : ℕ → ℂ) (junkI : ℕ → ℕ) (hamiltonian : PExpr) : Except PyErr PyMatrix :=
  hamiltonian.toMatrix junkV junkI (-1) .csc

/-! ## VqeResult -/

/-- The fields of a `VqeResult` (vqe.py:140-145) that matter: `vqe.sampler`, the circuit and `_probs`. -/
structure VqeResult where
  sampler : Option Sampler
  circuit : OpsVal
  probs : Option (PyDict (List ℕ) ℝ)

/-- `range(n)` as a list of integers. -/
def qubitRange (n : ℕ) : List ℤ := (List.range n).map (fun k : ℕ => (k : ℤ))

/-- The part of `get_probs` that computes new probabilities (vqe.py:163-169): the circuit afterwards and the result. -/
def VqeResult.measureProbs (r : VqeResult) (sampler : Option Sampler) (rnd : ℕ → ℝ) :
    OpsVal × Except PyErr (PyDict (List ℕ) ℝ × (ℕ → ℝ)) :=
  let sampler := match sampler with
    | none => r.sampler
    | some s => some s
  match sampler with
  | none =>
    (r.circuit, do
      let (q, rnd) ← runStatevector r.circuit rnd
      let d ← expect q (qubitRange r.circuit.n)
      .ok (d, rnd))
  | some s => s r.circuit (qubitRange r.circuit.n) rnd

/-- `VqeResult.get_probs(sampler, rerun, store)` (vqe.py:157-172): the object afterwards and the result. -/
def VqeResult.getProbs (r : VqeResult) (sampler : Option Sampler) (rerun : Option Bool) (store : Bool) (rnd : ℕ → ℝ) :
    VqeResult × Except PyErr (PyDict (List ℕ) ℝ × (ℕ → ℝ)) :=
  let rerun := match rerun with
    | none => sampler.isSome
    | some b => b
  let fresh :=
    match r.measureProbs sampler rnd with
    | (c, .error e) => ({ r with circuit := c }, .error e)
    | (c, .ok (probs, rnd)) =>
      if store then ({ r with circuit := c, probs := some probs }, .ok (probs, rnd))
      else ({ r with circuit := c }, .ok (probs, rnd))
  match r.probs with
  | some probs => if rerun then fresh else (r, .ok (probs, rnd))
  | none => fresh

/-- The obsolete property `VqeResult.probs` (vqe.py:150-155); its DeprecationWarning is not modelled. -/
def VqeResult.probsAttr (r : VqeResult) (rnd : ℕ → ℝ) : VqeResult × Except PyErr (PyDict (List ℕ) ℝ × (ℕ → ℝ)) :=
  r.getProbs none none true rnd

/-- `l[:n]`. Library behaviour. -/
def sliceTo {α : Type} (l : List α) (n : ℤ) : List α := l.take (if n < 0 then n + l.length else n).toNat

open Classical in
/-- `sorted(items, key=lambda item: -item[1])`, which is stable (vqe.py:148). -/
def sortByProb (items : PyDict (List ℕ) ℝ) : PyDict (List ℕ) ℝ :=
  items.mergeSort (fun a b => decide (-a.2 ≤ -b.2))

/-- `VqeResult.most_common(n)` (vqe.py:147-148). -/
def VqeResult.mostCommon (r : VqeResult) (n : ℤ) (rnd : ℕ → ℝ) :
    VqeResult × Except PyErr (PyDict (List ℕ) ℝ × (ℕ → ℝ)) :=
  match r.getProbs none none true rnd with
  | (r, .error e) => (r, .error e)
  | (r, .ok (probs, rnd)) => (r, .ok (sliceTo (sortByProb probs) n, rnd))

end

end Blueqat
