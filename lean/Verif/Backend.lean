import Verif.Numpy

/-!
# The backend base class (blueqat/backends/backendbase.py)
-/

namespace Blueqat

/-- `Backend._run_gates(gates, n_qubits, ctx)` (lines 45-53); `act` is `_get_action` (lines 86-90). One gate is
`runGate`. -/
noncomputable def runGates {σ : Type} (act : Gate → Option (σ → Except PyErr σ)) (n fuel : ℕ) (gates : List Gate)
    (ctx : σ) : Except PyErr σ :=
  gates.foldlM (fun s g => runGate act n fuel g s) ctx

/-- `a += f(x)` in a loop (lines 98-102): concatenate the lists, stopping at the first exception. -/
def concatM {α β : Type} (f : α → Except PyErr (List β)) : List α → Except PyErr (List β)
  | [] => .ok []
  | x :: xs =>
    match f x with
    | .error e => .error e
    | .ok l =>
      match concatM f xs with
      | .error e => .error e
      | .ok r => .ok (l ++ r)

/-- `_resolve_fallback` for one gate (lines 98-102); `has` is `_has_action` (lines 92-93). The first number is the
depth of nested calls left before RecursionError. -/
noncomputable def resolveGate (has : Gate → Bool) (n : ℕ) : ℕ → Gate → Except PyErr (List Gate)
  | 0, _ => .error .recursionError
  | fuel + 1, g =>
    if has g = true then .ok [g]
    else
      match g.fallback n with
      | .error e => .error e
      | .ok gs => concatM (resolveGate has n fuel) gs

/-- `Backend._resolve_fallback(gates, n_qubits)` (lines 95-103). -/
noncomputable def resolveFallback (has : Gate → Bool) (n fuel : ℕ) (gates : List Gate) : Except PyErr (List Gate) :=
  concatM (resolveGate has n fuel) gates

/-- Gates with a `gate_*` method in `NumPyBackend` (blueqat/backends/numpy_backend.py:136-450). -/
def npHas : Gate → Bool
  | .g1 k _ => match k with
    | .x | .y | .z | .h | .t | .s | .rx _ | .ry _ | .rz _ | .phase _ | .u1 _ | .u3 _ _ _ => true
    | _ => false
  | .g2 k _ => match k with
    | .cz | .cx | .crx _ | .cry _ | .crz _ | .cphase _ => true
    | _ => false
  | .g3 k _ => match k with
    | .ccx | .ccz => true
    | .cswap => false
  | .measure _ => true
  | .reset _ => true

/-- Gates with a `gate_*` method in `NumbaBackend` (blueqat/backends/_numba_backend_impl.py:444-642). -/
def nbHas : Gate → Bool
  | .g1 k _ => match k with
    | .x | .y | .z | .h | .t | .tdg | .s | .sdg | .rx _ | .ry _ | .rz _ | .phase _ | .u1 _ | .u3 _ _ _ => true
    | _ => false
  | .g2 k _ => match k with
    | .cz | .cx | .crx _ | .cry _ | .crz _ | .cphase _ => true
    | _ => false
  | .g3 k _ => match k with
    | .ccx | .ccz => true
    | .cswap => false
  | .measure _ => true
  | .reset _ => true

/-- Gates with a `gate_*` attribute in `SympyBackend` (blueqat/backends/sympy_backend.py:100-107,125-127,142-143,
157-158). -/
def syHas : Gate → Bool
  | .g1 k _ => match k with
    | .x | .y | .z | .h | .rx _ | .ry _ | .rz _ | .phase _ | .u1 _ | .u2 _ _ | .u3 _ _ _ => true
    | _ => false
  | .g2 k _ => match k with
    | .cz | .cx => true
    | _ => false
  | .g3 _ _ => false
  | .measure _ => true
  | .reset _ => true

/-- Gates with a `gate_*` attribute in `QasmOutputBackend` (blueqat/backends/qasm_output_backend.py:47-132). -/
def qaHas : Gate → Bool
  | .g1 k _ => match k with
    | .x | .y | .z | .h | .t | .s | .rx _ | .ry _ | .rz _ | .i | .u1 _ | .u2 _ _ | .u3 _ _ _ | .phase _ => true
    | _ => false
  | .g2 k _ => match k with
    | .cz | .cx | .cy | .ch | .swap | .cu1 _ | .cu2 _ _ | .cu3 _ _ _ | .cphase _ => true
    | _ => false
  | .g3 k _ => match k with
    | .ccx | .cswap => true
    | .ccz => false
  | .measure _ => true
  | .reset _ => true

end Blueqat
