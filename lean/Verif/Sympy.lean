import Verif.Backend

/-!
# The symbolic backend behind `to_unitary` (blueqat/backends/sympy_backend.py)

Sympy expressions without free symbols are modelled by the complex numbers they denote, so simplification and
ordering of terms disappear and `mat[i, i] != 0` is the exact test. `_angle_simplify` (lines 28-34), which replaces
a float by a multiple of pi within its precision, is the identity here and modelled in `SympyAngle`; symbolic gate
angles are modelled in `SymGate`.
Line numbers are of blueqat/backends/sympy_backend.py.
-/

namespace Blueqat

noncomputable section

/-- A square sympy `Matrix`: its size and its entries (those outside the size are not meaningful). -/
structure SMat where
  dim : ℕ
  ent : ℕ → ℕ → ℂ

/-- The rows of a matrix, what a caller can observe of it. -/
def SMat.rows (A : SMat) : List (List ℂ) := (List.range A.dim).map fun i => (List.range A.dim).map fun j => A.ent i j

/-- `Matrix([[a, b], [c, d]])`. -/
def SMat.lit (a b c d : ℂ) : SMat :=
  ⟨2, fun i j => if i = 0 then (if j = 0 then a else b) else (if j = 0 then c else d)⟩

/-- sympy `eye(d)`. -/
def SMat.eye (d : ℕ) : SMat := ⟨d, fun i j => if i = j then 1 else 0⟩

/-- `A * B` of sympy matrices of the same size. (All products in this backend are of `2**n_qubits` matrices.) -/
def SMat.mul (A B : SMat) : SMat :=
  ⟨A.dim, fun i j => ((List.range A.dim).map fun k => A.ent i k * B.ent k j).sum⟩

/-- `A + B`. -/
def SMat.add (A B : SMat) : SMat := ⟨A.dim, fun i j => A.ent i j + B.ent i j⟩

/-- `A * z` for a scalar. -/
def SMat.scale (A : SMat) (z : ℂ) : SMat := ⟨A.dim, fun i j => A.ent i j * z⟩

/-- `TensorProduct(A, B)` of explicit matrices: the Kronecker product. -/
def SMat.tensor (A B : SMat) : SMat :=
  ⟨A.dim * B.dim, fun i j => A.ent (i / B.dim) (j / B.dim) * B.ent (i % B.dim) (j % B.dim)⟩

/-- `functools.reduce(f, xs)` without initial value: TypeError for an empty sequence. -/
def pyReduce {α : Type} (f : α → α → α) : List α → Except PyErr α
  | [] => .error .typeError
  | x :: xs => .ok (xs.foldl f x)

/-- `_create_matrix_of_one_qubit_gate(n_qubits, targets, matrix_of_gate)` (lines 75-83) for a list of targets. -/
def syOneQubit (n : ℕ) (targets : List ℤ) (G : SMat) : Except PyErr SMat :=
  let gates := (List.range n).map fun idx => if ((idx : ℕ) : ℤ) ∈ targets then G else SMat.eye 2
  pyReduce SMat.tensor gates.reverse

/-- `SYMPY_GATE[gate.uppername]` with the parameters substituted, for the gates with a `gate_*` method
(lines 55-73, 91-127). -/
def sySympyGate : G1 → Option SMat
  | .x => some (.lit 0 1 1 0)
  | .y => some (.lit 0 (-Complex.I) Complex.I 0)
  | .z => some (.lit 1 0 0 (-1))
  | .h => some (.lit (1 / (√2 : ℝ)) (1 / (√2 : ℝ)) (1 / (√2 : ℝ)) (-1 / (√2 : ℝ)))
  | .rx θ => some (.lit (Complex.cos (θ / 2)) (-Complex.I * Complex.sin (θ / 2))
      (-Complex.I * Complex.sin (θ / 2)) (Complex.cos (θ / 2)))
  | .ry θ => some (.lit (Complex.cos (θ / 2)) (-Complex.sin (θ / 2)) (Complex.sin (θ / 2)) (Complex.cos (θ / 2)))
  | .rz θ => some (.lit (Complex.exp (-Complex.I * θ / 2)) 0 0 (Complex.exp (Complex.I * θ / 2)))
  | .phase θ => some (.lit 1 0 0 (Complex.exp (Complex.I * θ)))
  | .u1 lam => some (.lit (Complex.exp (-Complex.I * lam / 2)) 0 0 (Complex.exp (Complex.I * lam / 2)))
  | .u2 φ lam => some (.lit
      (Complex.exp (-Complex.I * (φ + lam) / 2) / (√2 : ℝ)) (-Complex.exp (-Complex.I * (φ - lam) / 2) / (√2 : ℝ))
      (Complex.exp (Complex.I * (φ - lam) / 2) / (√2 : ℝ)) (Complex.exp (Complex.I * (φ + lam) / 2) / (√2 : ℝ)))
  | .u3 θ φ lam => some (.lit
      (Complex.exp (-Complex.I * (φ + lam) / 2) * Complex.cos (θ / 2))
      (-Complex.exp (-Complex.I * (φ - lam) / 2) * Complex.sin (θ / 2))
      (Complex.exp (Complex.I * (φ - lam) / 2) * Complex.sin (θ / 2))
      (Complex.exp (Complex.I * (φ + lam) / 2) * Complex.cos (θ / 2)))
  | _ => none

/-- `_create_matrix_of_one_qubit_gate_circuit(gate, ctx, matrix_of_gate)` (lines 85-89); the context is its matrix. -/
def syGate1 (n : ℕ) (G : SMat) (T : Targets) (M : SMat) : Except PyErr SMat := do
  let targets ← (slicing T n).toList
  let m ← syOneQubit n targets G
  pure (m.mul M)

/-- `_create_matrix_of_two_qubit_gate(n_qubits, gate, control, target)` (lines 129-133); `G` is
`SYMPY_GATE[gate.uppername[1:]]`. -/
def syTwoQubit (n : ℕ) (G : SMat) (control target : ℤ) : Except PyErr SMat := do
  let c0 ← syOneQubit n [control] (.lit 1 0 0 0)
  let c1 ← syOneQubit n [control] (.lit 0 0 0 1)
  let tgt ← syOneQubit n [target] G
  pure (c0.add (tgt.mul c1))

/-- `_two_qubit_gate_noargs` (lines 135-140). -/
def syGate2 (n : ℕ) (G : SMat) (T : Targets) (M : SMat) : Except PyErr SMat :=
  forPairs (qubitPairs T n) (fun control target M => do
    let m ← syTwoQubit n G control target
    pure (m.mul M)) M

/-- The `gate_*` methods of `SympyBackend` (lines 100-107, 125-127, 142-143, 157-158). Measurement and reset
only warn. -/
def syAction (n : ℕ) : Gate → Option (SMat → Except PyErr SMat)
  | .g1 k T => (sySympyGate k).map fun G => syGate1 n G T
  | .g2 .cx T => some (syGate2 n (.lit 0 1 1 0) T)
  | .g2 .cz T => some (syGate2 n (.lit 1 0 0 (-1)) T)
  | .measure _ => some fun M => .ok M
  | .reset _ => some fun M => .ok M
  | _ => none

/-- `_postprocess_run` with `ignore_global` set (lines 166-170). -/
def syIgnoreGlobal (M : SMat) : SMat :=
  match (List.range M.dim).find? fun i => decide (M.ent i i ≠ 0) with
  | some i => M.scale ((‖M.ent i i‖ : ℂ) / M.ent i i)
  | none => M

/-- `Circuit(n, gates).to_unitary(ignore_global=...)`: `SympyBackend.run` (circuit.py:234-236, backendbase.py:71-73,
lines 160-170). The matrix lives in the context, which every action mutates. -/
def syRun (n : ℕ) (gates : List Gate) (ignoreGlobal : Bool) : Except PyErr SMat := do
  let M ← runGates (syAction n) n recursionLimit gates (SMat.eye (2 ^ n))
  pure (if ignoreGlobal then syIgnoreGlobal M else M)

end

end Blueqat
