import Verif.FloatPhase

/-!
# The simulators in rounded arithmetic, as circuits use them, and the argument `dtype` of numba runs

(blueqat/backends/numpy_backend.py:57-134, blueqat/backends/_numba_backend_impl.py:358-442)

The arithmetic of numpy is a parameter as in `Verif.NpFloat` and `Verif.FloatPhase`. numba has an arithmetic for every
complex dtype `d : D` the user can ask for: what the compiled kernels compute (`K d`) and the arithmetic of
`_ignore_global` (`P d`). Simplification: what a compiled kernel computes is a function of its arguments, so a parallel
sum is taken to be the same on every call with the same array.
-/

namespace Blueqat

noncomputable section

/-- `make_cache` of numpy (blueqat/backends/numpy_backend.py:133-134). -/
def flMakeCache (P : PhaseOps) (F : FloatOps) (n : ℕ) (gates : List Gate) (be : NpBackend) (rnd : ℕ → ℝ) :
    NpBackend × Except PyErr Unit :=
  let r := flRunPhase P F n gates be ⟨none, none, false, rnd⟩
  (r.1, r.2.map (fun _ => ()))

/-- The class `NumPyBackend` (blueqat/backends/numpy_backend.py:57-134): as `npKit`. -/
def flKit (P : PhaseOps) (F : FloatOps) : Kit Unit NpBackend RunArgs (NpVal × (ℕ → ℝ)) where
  make _ := NpBackend.new
  cls _ := ()
  run be gates n a := flRunPhase P F n gates be a
  makeCache be gates n a := flMakeCache P F n gates be a.rnd

/-- The fields of a `NumbaBackend` instance (blueqat/backends/_numba_backend_impl.py:368-370); the cached array has a
dtype. -/
structure NbTyped (D : Type) where
  cache : Option (D × Arr)
  cacheIdx : ℤ

variable {D : Type} [DecidableEq D]

/-- `NumbaBackend()` (blueqat/backends/_numba_backend_impl.py:368-370). -/
def NbTyped.new : NbTyped D := ⟨none, -1⟩

/-- `__clear_cache_if_invalid` (blueqat/backends/_numba_backend_impl.py:376-385). -/
def NbTyped.clearIfInvalid (be : NbTyped D) (n : ℕ) (d : D) : NbTyped D :=
  match be.cache with
  | none => ⟨none, -1⟩
  | some (d', c) =>
    if c.length ≠ 2 ^ n then ⟨none, -1⟩
    else if d' ≠ d then ⟨none, -1⟩
    else be

/-- The fields without the dtype (blueqat/backends/_numba_backend_impl.py:368-370). -/
def NbTyped.untyped (be : NbTyped D) : NbBackend := ⟨be.cache.map Prod.snd, be.cacheIdx⟩

/-- The fields after a run with dtype `d`: a cache that is there when the loop over shots begins has dtype `d`
(blueqat/backends/_numba_backend_impl.py:383), and so has every copy of `ctx.qubits` made during the run
(lines 47, 433, 614, 631). -/
def NbBackend.typed (be : NbBackend) (d : D) : NbTyped D := ⟨be.cache.map (fun q => (d, q)), be.cacheIdx⟩

variable (P : D → PhaseOps) (K : D → NbFloat)

/-- `NumbaBackend.run` (blueqat/backends/_numba_backend_impl.py:387-439) with all its options: as `flNbRunPhase`. -/
def nbTypedRun (n : ℕ) (gates : List Gate) (be : NbTyped D) (a : NbArgs) (d : D) :
    NbTyped D × Except PyErr (NpVal × (ℕ → ℝ)) :=
  match nbParse a.shots a.returns with
  | .error e => (be, .error e)
  | .ok (shots, returns) =>
    let be : NbTyped D := if a.enableCache then be.clearIfInvalid n d else ⟨none, -1⟩
    let ctx : NbCtx := ⟨List.replicate (2 ^ n) 0, [], a.rnd⟩
    match flNbShots (K d) n gates shots.toNat be.untyped ctx a.enableCache a.interrupt [] with
    | (be, .error e) => (be.typed d, .error e)
    | (be, .ok (ctx, counter)) =>
      let q := if a.ignoreGlobal then flIgnoreGlobal (P d) ctx.qubits else ctx.qubits
      (be.typed d, .ok (npReturn returns q ctx.cregs counter, ctx.rnd))

/-- `make_cache` of numba (blueqat/backends/_numba_backend_impl.py:441-442); `d0` is `DEFAULT_DTYPE` (line 28). -/
def nbTypedMakeCache (d0 : D) (n : ℕ) (gates : List Gate) (be : NbTyped D) (a : NbArgs) :
    NbTyped D × Except PyErr Unit :=
  let r := nbTypedRun P K n gates be ⟨none, none, true, false, a.rnd, a.interrupt⟩ d0
  (r.1, r.2.map (fun _ => ()))

/-- The class `NumbaBackend` (blueqat/backends/_numba_backend_impl.py:358-442): as `nbKit`. A run has the arguments of
`NbArgs` and the dtype, `d0` if it is not given (line 389). -/
def nbTypedKit (d0 : D) : Kit Unit (NbTyped D) (NbArgs × Option D) (NpVal × (ℕ → ℝ)) where
  make _ := NbTyped.new
  cls _ := ()
  run be gates n a := nbTypedRun P K n gates be a.1 (a.2.getD d0)
  makeCache be gates n a := nbTypedMakeCache P K d0 n gates be a.1

end

end Blueqat
