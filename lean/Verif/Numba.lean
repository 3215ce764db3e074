import Verif.Numpy
import Verif.Utils
import Verif.NpRun

/-!
# The numba simulator (blueqat/backends/_numba_backend_impl.py)

All line numbers are of that file unless another file is named. Exact real/complex arithmetic replaces floating
point; state indices are 64-bit words as in the code. The parallel loops (`prange`) are lists of iterations, every
iteration is a list of reads and writes of the state array; here they run one after the other, and the theorems
about `Spec.ParallelRun` show that any interleaving gives the same array.
-/

namespace Blueqat

/-- `_QSIdx`, `_QSMask` (lines 36-40). -/
abbrev U64 := BitVec 64

/-- `_shifted` (lines 69-75). -/
def nbShifted (lowerMask idx : U64) : U64 :=
  let lower := idx &&& lowerMask
  let higher := (idx &&& ~~~lowerMask) <<< 1
  higher + lower

/-- The loop `for i in range(len(indices), 0, -1): masks[i] &= ~masks[i - 1]` of `_create_masks` (lines 85-86). -/
def nbMaskLoop : ℕ → List U64 → List U64
  | 0, m => m
  | i + 1, m => nbMaskLoop i (m.set (i + 1) (m.getD (i + 1) 0 &&& ~~~m.getD i 0))

/-- `_create_masks` (lines 78-87). The argument is an array of uint32; that it is sorted in place does not matter
to the callers, which do not read it again. For repeated indices the count `x - i` may be negative: callers of this
function check for that case. -/
def nbCreateMasks (indices : List ℕ) : List U64 :=
  let indices := indices.mergeSort (fun a b => decide (a ≤ b))
  let masks := (indices.zipIdx.map fun p => ((1 : U64) <<< (p.1 - p.2)) - 1) ++ [BitVec.allOnes 64]
  nbMaskLoop indices.length masks

/-- `_mult_shifted` (lines 90-95). -/
def nbMultShifted (masks : List U64) (idx : U64) : U64 :=
  masks.zipIdx.foldl (fun shifted p => shifted ||| ((idx &&& p.1) <<< p.2)) 0

/-- One read or write of the state array inside a loop iteration; `t` and `u` are the local variables. -/
inductive Ins where
  | loadT (a : ℕ)
  | loadU (a : ℕ)
  | store (a : ℕ) (f : ℂ → ℂ → ℂ)

/-- The local variables of an iteration. -/
structure Loc where
  t : ℂ
  u : ℂ

noncomputable section

/-- Effect of one read or write. An access outside the array has no effect here; the theorems show there is none. -/
def Ins.exec (i : Ins) (s : Loc × Arr) : Loc × Arr :=
  match i with
  | .loadT a => ({ s.1 with t := s.2.getD a 0 }, s.2)
  | .loadU a => ({ s.1 with u := s.2.getD a 0 }, s.2)
  | .store a f => (s.1, s.2.set a (f s.1.t s.1.u))

/-- One iteration. -/
def runIter (p : List Ins) (q : Arr) : Arr := (p.foldl (fun s i => i.exec s) (⟨0, 0⟩, q)).2

/-- All iterations, one after the other. -/
def runIters (ps : List (List Ins)) (q : Arr) : Arr := ps.foldl (fun q p => runIter p q) q

/-- The loop of the one-qubit kernels (e.g. lines 109-111): `lower_mask = (1 << target) - 1`,
`for i in prange(1 << (n_qubits - 1))`, with `i0 = _shifted(lower_mask, i)` and `i0 + (1 << target)`. -/
def iters1 (body : ℕ → ℕ → List Ins) (n target : ℕ) : List (List Ins) :=
  let lowerMask : U64 := ((1 : U64) <<< target) - 1
  (List.range ((1 : U64) <<< ((BitVec.ofNat 64 n : U64) - 1).toNat).toNat).map fun i =>
    let i0 := nbShifted lowerMask (BitVec.ofNat 64 i)
    body i0.toNat (i0 + ((1 : U64) <<< target)).toNat

/-- `for c in l: mask |= 1 << c` (e.g. lines 231-233). -/
def nbOrMask (l : List ℕ) : U64 := l.foldl (fun m c => m ||| ((1 : U64) <<< c)) 0

/-- The loop of the controlled kernels (e.g. lines 231-239): `i10 = _mult_shifted(masks, i) | c_mask`,
`i11 = i10 | t_mask`. The array `controls_target` is `cs` followed by `t`. -/
def itersC (body : ℕ → ℕ → List Ins) (n : ℕ) (cs : List ℕ) (t : ℕ) : List (List Ins) :=
  let cMask := nbOrMask cs
  let tMask : U64 := (1 : U64) <<< t
  let nLoop := (1 : U64) <<< ((BitVec.ofNat 64 n : U64) - BitVec.ofNat 64 (cs ++ [t]).length).toNat
  let masks := nbCreateMasks (cs ++ [t])
  (List.range nLoop.toNat).map fun i =>
    let i10 := nbMultShifted masks (BitVec.ofNat 64 i) ||| cMask
    body i10.toNat (i10 ||| tMask).toNat

/-! ### Loop bodies -/

/-- `qubits[i1] *= z` (lines 103, 147, 312). -/
def insDiag (z : ℂ) (_i0 i1 : ℕ) : List Ins := [.loadT i1, .store i1 fun t _ => t * z]
/-- `_xgate`, `_cxgate` (lines 111-114, 237-242). -/
def insX (i0 i1 : ℕ) : List Ins := [.loadT i0, .loadU i1, .store i0 fun _ u => u, .store i1 fun t _ => t]
/-- `_ygate` (lines 122-125). -/
def insY (i0 i1 : ℕ) : List Ins :=
  [.loadT i0, .loadU i1, .store i0 fun _ u => u * (-1 * Complex.I), .store i1 fun t _ => t * Complex.I]
/-- `_hgate` (lines 131-139); the literal 0.7071067811865475 stands for `1/√2`. -/
def insH (i0 i1 : ℕ) : List Ins :=
  let sqrt2_inv : ℂ := (1 / √2 : ℝ)
  [.loadT i0, .loadU i1, .store i0 fun t u => (t + u) * sqrt2_inv, .store i1 fun t u => (t - u) * sqrt2_inv]
/-- `_rzgate`, `_crzgate` (lines 157-162, 295-298): `qubits[i0] *= z0; qubits[i1] *= z1`. The dead reads of lines
159-160 are left out. -/
def insRZ (z0 z1 : ℂ) (i0 i1 : ℕ) : List Ins :=
  [.loadT i0, .store i0 fun t _ => t * z0, .loadT i1, .store i1 fun t _ => t * z1]
/-- `qubits[i0] = a * t + b * u; qubits[i1] = c * t + d * u` (lines 174-178, 189-193, 209-213, 256-262). -/
def insRot (a b c d : ℂ) (i0 i1 : ℕ) : List Ins :=
  [.loadT i0, .loadU i1, .store i0 fun t u => a * t + b * u, .store i1 fun t u => c * t + d * u]
/-- `qubits[i0] = cos * t - sin * u; qubits[i1] = sin * t + cos * u` (lines 174-178, 276-282). -/
def insRY (cos sin : ℂ) (i0 i1 : ℕ) : List Ins :=
  [.loadT i0, .loadU i1, .store i0 fun t u => cos * t - sin * u, .store i1 fun t u => sin * t + cos * u]
/-- `_reduce0` (lines 333-335). -/
def insReduce0 (r : ℂ) (i0 i1 : ℕ) : List Ins := [.loadT i0, .store i0 fun t _ => t * r, .store i1 fun _ _ => 0]
/-- `_reduce1` (lines 343-345). -/
def insReduce1 (r : ℂ) (i0 i1 : ℕ) : List Ins := [.loadT i1, .store i1 fun t _ => t * r, .store i0 fun _ _ => 0]
/-- `_reset1` (lines 353-355). -/
def insReset1 (r : ℂ) (i0 i1 : ℕ) : List Ins := [.loadU i1, .store i0 fun _ u => u * r, .store i1 fun _ _ => 0]

/-! ### Kernels with their constants -/

/-- The loop body of the one-qubit gates that have a method: lines 98-213 and 444-610 (`gate_u1` calls `_rzgate`,
line 599). `cmath.exp(1j * x)` is `Complex.exp`. -/
def nbBody1 : G1 → Option (ℕ → ℕ → List Ins)
  | .x => some insX
  | .y => some insY
  | .z => some (insDiag (-1))
  | .h => some insH
  | .t => some (insDiag (Complex.exp (0.25 * Complex.I * Real.pi)))
  | .tdg => some (insDiag (Complex.exp (-0.25 * Complex.I * Real.pi)))
  | .s => some (insDiag Complex.I)
  | .sdg => some (insDiag (-1 * Complex.I))
  | .rx θ =>
    let ang := θ * 0.5
    let cos : ℂ := Real.cos ang
    let nisin : ℂ := Real.sin ang * (-1 * Complex.I)
    some (insRot cos nisin nisin cos)
  | .ry θ =>
    let ang := θ * 0.5
    some (insRY (Real.cos ang) (Real.sin ang))
  | .rz θ =>
    let ang := θ * 0.5
    let eit := Complex.exp (Complex.I * ang)
    some (insRZ (starRingEnd ℂ eit) eit)
  | .u1 lam =>
    let ang := lam * 0.5
    let eit := Complex.exp (Complex.I * ang)
    some (insRZ (starRingEnd ℂ eit) eit)
  | .phase θ => some (insDiag (Complex.exp (Complex.I * θ)))
  | .u3 θ φ lam =>
    let θ' := θ * 0.5
    let cos : ℂ := Real.cos θ'
    let sin : ℂ := Real.sin θ'
    let expadd := Complex.exp ((φ + lam) * (0.5 * Complex.I))
    let expsub := Complex.exp ((φ - lam) * (0.5 * Complex.I))
    some (insRot (starRingEnd ℂ expadd * cos) (-(starRingEnd ℂ expsub) * sin) (expsub * sin) (expadd * cos))
  | .i => none
  | .u2 _ _ => none

/-- The loop body of the two-qubit gates that have a method: lines 216-315 and 504-580. `_czgate` and `_cphasegate`
write only `i11`. -/
def nbBody2 : G2 → Option (ℕ → ℕ → List Ins)
  | .cx => some insX
  | .cz => some (insDiag (-1))
  | .crx θ =>
    let ang := θ * 0.5
    let cos : ℂ := Real.cos ang
    let nisin : ℂ := Real.sin ang * (-1 * Complex.I)
    some (insRot cos nisin nisin cos)
  | .cry θ =>
    let ang := θ * 0.5
    some (insRY (Real.cos ang) (Real.sin ang))
  | .crz θ =>
    let ang := θ * 0.5
    let eit := Complex.exp (Complex.I * ang)
    some (insRZ (starRingEnd ℂ eit) eit)
  | .cphase θ => some (insDiag (Complex.exp (Complex.I * θ)))
  | _ => none

/-- The loop body of the three-qubit gates that have a method (lines 582-592). -/
def nbBody3 : G3 → Option (ℕ → ℕ → List Ins)
  | .ccx => some insX
  | .ccz => some (insDiag (-1))
  | .cswap => none

/-- A call of a one-qubit kernel. A target outside the register makes the compiled loop leave the array. -/
def nbKernel1 (body : ℕ → ℕ → List Ins) (n : ℕ) (target : ℤ) (q : Arr) : Except PyErr Arr :=
  if 0 ≤ target ∧ target < n then .ok (runIters (iters1 body n target.toNat) q) else .error .undefinedBehaviour

/-- A call of a controlled kernel with `np.array([...], dtype=np.uint32)` of the given numbers (lines 508, 515, 585).
Negative numbers cannot be stored as uint32, numbers outside the register make the loop leave the array, repeated
numbers make `_create_masks` shift by a negative count, and an empty array has no last element. -/
def nbKernelC (body : ℕ → ℕ → List Ins) (n : ℕ) (ct : List ℤ) (q : Arr) : Except PyErr Arr :=
  if (∀ x ∈ ct, 0 ≤ x ∧ x < n) ∧ ct.Nodup then
    match ct.getLast? with
    | none => .error .undefinedBehaviour
    | some t => .ok (runIters (itersC body n (ct.dropLast.map Int.toNat) t.toNat) q)
  else .error .undefinedBehaviour

/-- The numbers of `np.array(gate.targets, dtype=np.uint32)` (lines 585, 591): TypeError for slices and for a
single number, which is not an array (numba's TypingError counts as TypeError here), ValueError for a nested tuple. -/
def nbIntArray : Targets → Except PyErr (List ℤ)
  | .one _ => .error .typeError
  | .tup xs => xs.mapM fun
    | .atom (.int i) => .ok i
    | .atom _ => .error .typeError
    | .tup _ => .error .valueError

/-- The part of `_NumbaBackendContext` (lines 42-60) that gates read and write, and the unused random numbers. -/
structure NbCtx where
  qubits : Arr
  cregs : List ℕ
  rnd : ℕ → ℝ

/-- The methods of unitary gates (lines 444-610), acting on `ctx.qubits`. -/
def nbArr (n : ℕ) : Gate → Option (Arr → Except PyErr Arr)
  | .g1 k T => (nbBody1 k).map fun b q => forGen (slicing T n) (nbKernel1 b n) q
  | .g2 k T => (nbBody2 k).map fun b q => forPairs (qubitPairs T n) (fun c t q => nbKernelC b n [c, t] q) q
  | .g3 k T => (nbBody3 k).map fun b q => do
    let ct ← nbIntArray T
    nbKernelC b n ct q
  | .measure _ => none
  | .reset _ => none

/-- `_p0calc` (lines 317-325). -/
def nbP0 (n target : ℕ) (q : Arr) : ℝ :=
  let lowerMask : U64 := ((1 : U64) <<< target) - 1
  ((List.range ((1 : U64) <<< ((BitVec.ofNat 64 n : U64) - 1).toNat).toNat).map fun i =>
    let val := q.getD (nbShifted lowerMask (BitVec.ofNat 64 i)).toNat 0
    val.re * val.re + val.im * val.im).foldl (· + ·) 0

/-- Loop body of `gate_measure` (lines 618-626). -/
def nbMeasureBody (n : ℕ) (target : ℤ) (ctx : NbCtx) : Except PyErr NbCtx :=
  if 0 ≤ target ∧ target < n then do
    let rand := ctx.rnd 0
    let rnd' : ℕ → ℝ := fun k => ctx.rnd (k + 1)
    let p0 := nbP0 n target.toNat ctx.qubits
    if rand < p0 then
      let q := runIters (iters1 (insReduce0 (1 / Real.sqrt p0 : ℝ)) n target.toNat) ctx.qubits
      let cregs ← setCreg ctx.cregs target 0
      pure ⟨q, cregs, rnd'⟩
    else
      let q := runIters (iters1 (insReduce1 (1 / Real.sqrt (1 - p0) : ℝ)) n target.toNat) ctx.qubits
      let cregs ← setCreg ctx.cregs target 1
      pure ⟨q, cregs, rnd'⟩
  else .error .undefinedBehaviour

/-- Loop body of `gate_reset` (lines 635-641). -/
def nbResetBody (n : ℕ) (target : ℤ) (ctx : NbCtx) : Except PyErr NbCtx :=
  if 0 ≤ target ∧ target < n then
    let rand := ctx.rnd 0
    let rnd' : ℕ → ℝ := fun k => ctx.rnd (k + 1)
    let p0 := nbP0 n target.toNat ctx.qubits
    if rand < p0 then
      .ok ⟨runIters (iters1 (insReduce0 (1 / Real.sqrt p0 : ℝ)) n target.toNat) ctx.qubits, ctx.cregs, rnd'⟩
    else
      .ok ⟨runIters (iters1 (insReset1 (1 / Real.sqrt (1 - p0) : ℝ)) n target.toNat) ctx.qubits, ctx.cregs, rnd'⟩
  else .error .undefinedBehaviour

/-- `_get_action` of the numba backend: the `gate_*` methods. The first lines of `gate_measure` and `gate_reset`,
which write the cache (lines 613-615, 630-632), are in `nbGates`. -/
def nbAction (n : ℕ) (g : Gate) : Option (NbCtx → Except PyErr NbCtx) :=
  match g with
  | .measure T => some (forGen (slicing T n) (nbMeasureBody n))
  | .reset T => some (forGen (slicing T n) (nbResetBody n))
  | g => (nbArr n g).map fun f ctx => (f ctx.qubits).map fun q => { ctx with qubits := q }

/-- `run_single_gate` (lines 414-421). -/
def nbRunGate (n : ℕ) (g : Gate) (ctx : NbCtx) : Except PyErr NbCtx :=
  runGate (nbAction n) n recursionLimit g ctx

/-! ### Runs -/

/-- The fields of a `NumbaBackend` instance (lines 368-370). -/
structure NbBackend where
  cache : Option Arr
  cacheIdx : ℤ

/-- `NumbaBackend()` (lines 368-370). -/
def NbBackend.new : NbBackend := ⟨none, -1⟩

/-- `__clear_cache_if_invalid` (lines 376-385); the dtype is always complex128 here (`Verif.FloatKit` has dtypes). -/
def NbBackend.clearIfInvalid (be : NbBackend) (n : ℕ) : NbBackend :=
  match be.cache with
  | none => ⟨none, -1⟩
  | some c => if c.length ≠ 2 ^ n then ⟨none, -1⟩ else be

/-- The gate is a measurement or a reset, whose methods begin with `if ctx.save_cache: self.cache = copy` and
`ctx.save_cache = False` (lines 613-615, 630-632). -/
def Gate.stopsCache : Gate → Bool
  | .measure _ => true
  | .reset _ => true
  | _ => false

/-- State of the loop over gates: the context, its `save_cache`, the attribute `self.cache`, the local variable
`cache_idx`, and the number of gates after which the user interrupts the run, if they do. -/
structure NbLoop where
  ctx : NbCtx
  save : Bool
  cache : Option Arr
  idx : ℤ
  fuse : Option ℕ

/-- The loop over the gates of one shot (lines 426-429). An exception leaves `self.cache` as it is at that moment.
Simplification: a KeyboardInterrupt arrives between two gates. -/
def nbGates (n : ℕ) : List Gate → NbLoop → NbLoop × Except PyErr Unit
  | [], s => (s, .ok ())
  | g :: gs, s =>
    if s.fuse = some 0 then (s, .error .keyboardInterrupt)
    else
      let s := { s with fuse := s.fuse.map (· - 1) }
      let s := if g.stopsCache then
          { s with cache := if s.save then some s.ctx.qubits else s.cache, save := false }
        else s
      match nbRunGate n g s.ctx with
      | .error e => (s, .error e)
      | .ok ctx => nbGates n gs { s with ctx := ctx, idx := if s.save then s.idx + 1 else s.idx }

/-- `ctx.prepare(cache)` (lines 52-59); `np.copyto` of another length is a ValueError. -/
def nbPrepare (n : ℕ) (cache : Option Arr) (ctx : NbCtx) : Except PyErr NbCtx :=
  match cache with
  | some c => if c.length = ctx.qubits.length then .ok ⟨c, List.replicate n 0, ctx.rnd⟩ else .error .valueError
  | none => .ok ⟨(List.replicate ctx.qubits.length (0 : ℂ)).set 0 1, List.replicate n 0, ctx.rnd⟩

/-- The loop over shots (lines 423-435). -/
def nbShots (n : ℕ) (gates : List Gate) :
    ℕ → NbBackend → NbCtx → Bool → Option ℕ → Counter → NbBackend × Except PyErr (NbCtx × Counter)
  | 0, be, ctx, _, _, res => (be, .ok (ctx, res))
  | k + 1, be, ctx, save, fuse, res =>
    match nbPrepare n be.cache ctx with
    | .error e => (be, .error e)
    | .ok ctx =>
      match nbGates n (gates.drop (be.cacheIdx + 1).toNat) ⟨ctx, save, be.cache, be.cacheIdx, fuse⟩ with
      | (s, .error e) => (⟨s.cache, be.cacheIdx⟩, .error e)
      | (s, .ok _) =>
        let be : NbBackend :=
          if be.cacheIdx ≠ s.idx then ⟨if s.save then some s.ctx.qubits else s.cache, s.idx⟩
          else ⟨s.cache, be.cacheIdx⟩
        let res := if s.ctx.cregs = [] then res else res.add (cregsKey s.ctx.cregs)
        nbShots n gates k be s.ctx s.save s.fuse res

/-- The arguments of `run` (line 388), the random numbers of the run, and the number of gates after which the user
interrupts it, if they do. Simplification: `dtype` is complex128 (`Verif.FloatKit` has dtypes). -/
structure NbArgs where
  shots : Option ℤ
  returns : Option String
  enableCache : Bool
  ignoreGlobal : Bool
  rnd : ℕ → ℝ
  interrupt : Option ℕ

/-- The keys of `__return_type` (lines 360-365). -/
def nbReturnTypes : List String := ["statevector", "shots", "statevector_and_shots", "_inner_ctx"]

/-- `__parse_run_args` (lines 388-404), without the warning. -/
def nbParse (shots : Option ℤ) (returns : Option String) : Except PyErr (ℤ × String) :=
  let returns := match returns with
    | some r => r
    | none => if shots.isNone then "statevector" else "shots"
  if returns ∈ nbReturnTypes then
    match shots with
    | some k => .ok (k, returns)
    | none => .ok (if returns = "statevector" ∨ returns = "_inner_ctx" then 1 else 1024, returns)
  else .error .valueError

/-- `_ignore_global` (lines 645-652). -/
def nbIgnoreGlobal (qubits : Arr) : Arr :=
  match qubits.find? (fun q => decide (‖q‖ > 0.0000001)) with
  | none => qubits
  | some q => qubits.map (fun z => z * ((‖q‖ : ℂ) / q))

/-- `NumbaBackend.run` (lines 387-439). -/
def nbRunArgs (n : ℕ) (gates : List Gate) (be : NbBackend) (a : NbArgs) :
    NbBackend × Except PyErr (NpVal × (ℕ → ℝ)) :=
  match nbParse a.shots a.returns with
  | .error e => (be, .error e)
  | .ok (shots, returns) =>
    let be := if a.enableCache then be.clearIfInvalid n else ⟨none, -1⟩
    let ctx : NbCtx := ⟨List.replicate (2 ^ n) 0, [], a.rnd⟩
    match nbShots n gates shots.toNat be ctx a.enableCache a.interrupt [] with
    | (be, .error e) => (be, .error e)
    | (be, .ok (ctx, counter)) =>
      let q := if a.ignoreGlobal then nbIgnoreGlobal ctx.qubits else ctx.qubits
      (be, .ok (npReturn returns q ctx.cregs counter, ctx.rnd))

/-- `make_cache` (lines 441-442). -/
def nbMakeCache (n : ℕ) (gates : List Gate) (be : NbBackend) (a : NbArgs) : NbBackend × Except PyErr Unit :=
  let r := nbRunArgs n gates be ⟨none, none, true, false, a.rnd, a.interrupt⟩
  (r.1, r.2.map (fun _ => ()))

/-- The numba backend as circuits use it. -/
def nbKit : Kit Unit NbBackend NbArgs (NpVal × (ℕ → ℝ)) where
  make _ := NbBackend.new
  cls _ := ()
  run be gates n a := nbRunArgs n gates be a
  makeCache be gates n a := nbMakeCache n gates be a

end

end Blueqat
