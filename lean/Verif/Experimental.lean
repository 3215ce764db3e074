import Verif.NpRun

/-!
# `circuit_to_unitary` (blueqat/experimental/utils.py)
-/

namespace Blueqat

noncomputable section

/-- `tuple(k for k in range(n_qubits) if (1 << k) & i)` (line 26). -/
def ctuBitmask (n i : ℕ) : List ℕ := (List.range n).filter fun k => (1 <<< k) &&& i ≠ 0

/-- The circuit of one column (lines 26-30): `Circuit()`, `x[bitmask]` if the tuple is not empty, `+= circ`. A
circuit is given by its size and operations (`OpsVal`; C61 relates it to circuit objects). -/
def ctuCircuit (circ : OpsVal) (i : ℕ) : Except PyErr OpsVal :=
  let bitmask := ctuBitmask circ.n i
  let c : OpsVal := ⟨0, []⟩
  if bitmask ≠ [] then
    match c.append (.g1 .x (.tup (bitmask.map fun k : ℕ => .atom (.int k)))) with
    | .error e => .error e
    | .ok c => .ok (c.add circ)
  else .ok (c.add circ)

/-- The loop (lines 25-31). Every `c` is new, so its backend object is new. `returns` is `'statevector'`, as by
default (line 19); simplification: a caller that overrides `returns` or the backend is not modelled. -/
def ctuLoop (circ : OpsVal) (shots : Option ℤ) (ignoreGlobal : Bool) : List ℕ → (ℕ → ℝ) →
    Except PyErr (List Arr × (ℕ → ℝ))
  | [], rnd => .ok ([], rnd)
  | i :: is, rnd =>
    match ctuCircuit circ i with
    | .error e => .error e
    | .ok c =>
      match (npRunArgs c.n c.ops NpBackend.new ⟨shots, some "statevector", ignoreGlobal, rnd⟩).2 with
      | .error e => .error e
      | .ok (.statevector q, rnd) =>
        match ctuLoop circ shots ignoreGlobal is rnd with
        | .error e => .error e
        | .ok (vecs, rnd) => .ok (q :: vecs, rnd)
      | .ok _ => .error .typeError

/-- `np.array(vecs).T` for `k` vectors of `k` numbers (line 32), by rows. -/
def ctuTranspose (vecs : List Arr) : List (List ℂ) :=
  (List.range vecs.length).map fun i => vecs.map fun v => v.getD i 0

/-- `circuit_to_unitary(circ, shots=..., ignore_global=...)` (lines 18-32): rows of the matrix, and the unused
random numbers. -/
def circuitToUnitary (circ : OpsVal) (shots : Option ℤ) (ignoreGlobal : Bool) (rnd : ℕ → ℝ) :
    Except PyErr (List (List ℂ) × (ℕ → ℝ)) :=
  if circ.n = 0 then .ok ([[1]], rnd)
  else
    match ctuLoop circ shots ignoreGlobal (List.range (1 <<< circ.n)) rnd with
    | .error e => .error e
    | .ok (vecs, rnd) => .ok (ctuTranspose vecs, rnd)

end

end Blueqat
