import Verif.NpFloat
import Verif.NbFloat

/-!
# `ignore_global` in rounded arithmetic (blueqat/utils.py:41-55, blueqat/backends/_numba_backend_impl.py:645-652)

Both functions have the same source; their arithmetic is a parameter `P : PhaseOps`. Simplification: floating-point
numbers are real numbers (no NaN, no infinities, no signed zero).
-/

namespace Blueqat

/-- The arithmetic of `ignore_global_phase` (blueqat/utils.py:50-54) and `_ignore_global`
(blueqat/backends/_numba_backend_impl.py:647-651). -/
structure PhaseOps where
  /-- `abs(q)` of a complex number -/
  abs : ℂ → ℝ
  /-- a float divided by a complex number -/
  quot : ℝ → ℂ → ℂ
  /-- the products of `statevec *= ang` -/
  mul : ℂ → ℂ → ℂ
  /-- the float `0.0000001` -/
  thr : ℝ

noncomputable section

/-- Exact arithmetic: the operations `Verif.Utils` uses for blueqat/utils.py:50-54. -/
def PhaseOps.exact : PhaseOps where
  abs z := ‖z‖
  quot x z := x / z
  mul := (· * ·)
  thr := 0.0000001

/-- Division of a float by a complex number as numpy does it (Smith's method), with a rounding `fl` after every operation
on floats; the float is converted to a complex number with imaginary part 0 first (blueqat/utils.py:52). -/
def flSmith (fl : ℝ → ℝ) (x : ℝ) (z : ℂ) : ℂ :=
  if |z.im| ≤ |z.re| then
    let rat := fl (z.im / z.re)
    let scl := fl (1 / fl (z.re + fl (z.im * rat)))
    ⟨fl (fl (x + fl (0 * rat)) * scl), fl (fl (0 - fl (x * rat)) * scl)⟩
  else
    let rat := fl (z.re / z.im)
    let scl := fl (1 / fl (z.im + fl (z.re * rat)))
    ⟨fl (fl (fl (x * rat) + 0) * scl), fl (fl (fl (0 * rat) - x) * scl)⟩

/-- The arithmetic of blueqat/utils.py:50-54 with a rounding `fl` after every operation on floats. `hypot` is that of the
C library. numpy is not part of /repo: this is an assumption about it, used only to show that the hypotheses on `PhaseOps`
can be met by floating-point arithmetic. -/
def PhaseOps.rounded (fl : ℝ → ℝ) (hypot : ℝ → ℝ → ℝ) : PhaseOps where
  abs z := hypot z.re z.im
  quot := flSmith fl
  mul := (FloatOps.rounded fl id id).mul
  thr := fl 0.0000001

variable (P : PhaseOps)

/-- `ignore_global_phase` (blueqat/utils.py:41-55), `_ignore_global` (blueqat/backends/_numba_backend_impl.py:645-652):
the first `q` with `abs(q) > 0.0000001` decides. -/
def flIgnoreGlobal (statevec : Arr) : Arr :=
  match statevec.find? (fun q => decide (P.abs q > P.thr)) with
  | none => statevec
  | some q =>
    let ang := P.quot (P.abs q) q
    statevec.map (fun z => P.mul z ang)

/-- `NumPyBackend.run` (blueqat/backends/numpy_backend.py:87-131) with all its options: as `npRunArgs`. -/
def flRunPhase (F : FloatOps) (n : ℕ) (gates : List Gate) (be : NpBackend) (a : RunArgs) :
    NpBackend × Except PyErr (NpVal × (ℕ → ℝ)) :=
  match npParse a.shots a.returns with
  | .error e => (be, .error e)
  | .ok (shots, returns) =>
    match flRun F n gates shots.toNat be a.rnd with
    | (be, .error e) => (be, .error e)
    | (be, .ok (ctx, counter)) =>
      let q := if a.ignoreGlobal then flIgnoreGlobal P ctx.qubits else ctx.qubits
      (be, .ok (npReturn returns q ctx.cregs counter, ctx.rnd))

/-- `NumbaBackend.run` (blueqat/backends/_numba_backend_impl.py:387-439) with all its options: as `nbRunArgs`. -/
def flNbRunPhase (K : NbFloat) (n : ℕ) (gates : List Gate) (be : NbBackend) (a : NbArgs) :
    NbBackend × Except PyErr (NpVal × (ℕ → ℝ)) :=
  match nbParse a.shots a.returns with
  | .error e => (be, .error e)
  | .ok (shots, returns) =>
    let be := if a.enableCache then be.clearIfInvalid n else ⟨none, -1⟩
    let ctx : NbCtx := ⟨List.replicate (2 ^ n) 0, [], a.rnd⟩
    match flNbShots K n gates shots.toNat be ctx a.enableCache a.interrupt [] with
    | (be, .error e) => (be, .error e)
    | (be, .ok (ctx, counter)) =>
      let q := if a.ignoreGlobal then flIgnoreGlobal P ctx.qubits else ctx.qubits
      (be, .ok (npReturn returns q ctx.cregs counter, ctx.rnd))

end

end Blueqat
