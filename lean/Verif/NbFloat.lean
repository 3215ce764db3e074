import Verif.Numba
import Verif.NpFloat

/-!
# The numba simulator in rounded arithmetic (blueqat/backends/_numba_backend_impl.py)

All line numbers are of that file unless another file is named. The kernels are compiled with `fastmath=True` (line 29),
which lets the compiler reorder and fuse floating-point operations, differently for different iterations of a loop. So
the values a compiled kernel writes are a parameter `K : NbFloat`; which elements it reads and writes, in which order,
and everything outside the kernels is as in `Verif.Numba`. Simplification: floating-point numbers are real numbers (no
NaN, no infinities, no signed zero).
-/

namespace Blueqat

/-- The compiled loops that write: those of gates with a method (lines 98-315), with their parameters, and `_reduce0`,
`_reduce1`, `_reset1` (lines 327-355) with the value of `p0`. -/
inductive NbKernel where
  | one (k : G1)
  | two (k : G2)
  | three (k : G3)
  | reduce0 (p0 : ℝ)
  | reduce1 (p0 : ℝ)
  | reset1 (p0 : ℝ)

/-- What the compiled kernels (lines 98-355) compute. -/
structure NbFloat where
  /-- `store k j a t u`: what the `j`-th read or write of an iteration of the kernel `k`, which is a write, puts at
  address `a` when the elements read into the local variables are `t` and `u`. -/
  store : NbKernel → ℕ → ℕ → ℂ → ℂ → ℂ
  /-- What `_p0calc` (lines 317-325) returns for `n` qubits, a target and the state. -/
  p0 : ℕ → ℕ → Arr → ℝ

noncomputable section

/-- The iteration of a kernel (lines 98-355) with the values written replaced by those of the compiled code. -/
def compiled (S : ℕ → ℕ → ℂ → ℂ → ℂ) (body : ℕ → ℕ → List Ins) (i0 i1 : ℕ) : List Ins :=
  (body i0 i1).zipIdx.map fun p => match p.1 with
    | .store a _ => .store a (S p.2 a)
    | i => i

/-- What the `j`-th read or write of an iteration (lines 98-355), which is a write, puts into the array. -/
def storeOf (body : ℕ → ℕ → List Ins) (j : ℕ) (t u : ℂ) : ℂ :=
  match (body 0 1)[j]? with
  | some (.store _ f) => f t u
  | _ => 0

/-- The same for the kernel of a gate, if it has one (lines 98-315). -/
def storeOf? (body : Option (ℕ → ℕ → List Ins)) (j : ℕ) (t u : ℂ) : ℂ :=
  match body with
  | some b => storeOf b j t u
  | none => 0

/-- Exact arithmetic: what `Verif.Numba` computes for lines 98-355. -/
def NbFloat.exact : NbFloat where
  store k j _ t u := match k with
    | .one k => storeOf? (nbBody1 k) j t u
    | .two k => storeOf? (nbBody2 k) j t u
    | .three k => storeOf? (nbBody3 k) j t u
    | .reduce0 p0 => storeOf (insReduce0 (1 / Real.sqrt p0 : ℝ)) j t u
    | .reduce1 p0 => storeOf (insReduce1 (1 / Real.sqrt (1 - p0) : ℝ)) j t u
    | .reset1 p0 => storeOf (insReset1 (1 / Real.sqrt (1 - p0) : ℝ)) j t u
  p0 n t q := nbP0 n t q

variable (K : NbFloat)

/-- The methods of unitary gates (lines 444-610), acting on `ctx.qubits`: as `nbArr`. -/
def flNbArr (n : ℕ) : Gate → Option (Arr → Except PyErr Arr)
  | .g1 k T => (nbBody1 k).map fun b q => forGen (slicing T n) (nbKernel1 (compiled (K.store (.one k)) b) n) q
  | .g2 k T => (nbBody2 k).map fun b q =>
    forPairs (qubitPairs T n) (fun c t q => nbKernelC (compiled (K.store (.two k)) b) n [c, t] q) q
  | .g3 k T => (nbBody3 k).map fun b q => do
    let ct ← nbIntArray T
    nbKernelC (compiled (K.store (.three k)) b) n ct q
  | .measure _ => none
  | .reset _ => none

/-- Loop body of `gate_measure` (lines 618-626): as `nbMeasureBody`. -/
def flNbMeasureBody (n : ℕ) (target : ℤ) (ctx : NbCtx) : Except PyErr NbCtx :=
  if 0 ≤ target ∧ target < n then do
    let rand := ctx.rnd 0
    let rnd' : ℕ → ℝ := fun k => ctx.rnd (k + 1)
    let p0 := K.p0 n target.toNat ctx.qubits
    if rand < p0 then
      let q := runIters (iters1 (compiled (K.store (.reduce0 p0)) (insReduce0 (1 / Real.sqrt p0 : ℝ))) n target.toNat)
        ctx.qubits
      let cregs ← setCreg ctx.cregs target 0
      pure ⟨q, cregs, rnd'⟩
    else
      let q := runIters (iters1 (compiled (K.store (.reduce1 p0)) (insReduce1 (1 / Real.sqrt (1 - p0) : ℝ))) n
        target.toNat) ctx.qubits
      let cregs ← setCreg ctx.cregs target 1
      pure ⟨q, cregs, rnd'⟩
  else .error .undefinedBehaviour

/-- Loop body of `gate_reset` (lines 635-641): as `nbResetBody`. -/
def flNbResetBody (n : ℕ) (target : ℤ) (ctx : NbCtx) : Except PyErr NbCtx :=
  if 0 ≤ target ∧ target < n then
    let rand := ctx.rnd 0
    let rnd' : ℕ → ℝ := fun k => ctx.rnd (k + 1)
    let p0 := K.p0 n target.toNat ctx.qubits
    if rand < p0 then
      .ok ⟨runIters (iters1 (compiled (K.store (.reduce0 p0)) (insReduce0 (1 / Real.sqrt p0 : ℝ))) n target.toNat)
        ctx.qubits, ctx.cregs, rnd'⟩
    else
      .ok ⟨runIters (iters1 (compiled (K.store (.reset1 p0)) (insReset1 (1 / Real.sqrt (1 - p0) : ℝ))) n target.toNat)
        ctx.qubits, ctx.cregs, rnd'⟩
  else .error .undefinedBehaviour

/-- `_get_action` (blueqat/backends/backendbase.py:86-90) of the numba backend: as `nbAction`. -/
def flNbAction (n : ℕ) (g : Gate) : Option (NbCtx → Except PyErr NbCtx) :=
  match g with
  | .measure T => some (forGen (slicing T n) (flNbMeasureBody K n))
  | .reset T => some (forGen (slicing T n) (flNbResetBody K n))
  | g => (flNbArr K n g).map fun f ctx => (f ctx.qubits).map fun q => { ctx with qubits := q }

/-- The loop over the gates of one shot (lines 426-429): as `nbGates`. -/
def flNbGates (n : ℕ) : List Gate → NbLoop → NbLoop × Except PyErr Unit
  | [], s => (s, .ok ())
  | g :: gs, s =>
    if s.fuse = some 0 then (s, .error .keyboardInterrupt)
    else
      let s := { s with fuse := s.fuse.map (· - 1) }
      let s := if g.stopsCache then
          { s with cache := if s.save then some s.ctx.qubits else s.cache, save := false }
        else s
      match runGate (flNbAction K n) n recursionLimit g s.ctx with
      | .error e => (s, .error e)
      | .ok ctx => flNbGates n gs { s with ctx := ctx, idx := if s.save then s.idx + 1 else s.idx }

/-- The loop over shots (lines 423-435): as `nbShots`. -/
def flNbShots (n : ℕ) (gates : List Gate) :
    ℕ → NbBackend → NbCtx → Bool → Option ℕ → Counter → NbBackend × Except PyErr (NbCtx × Counter)
  | 0, be, ctx, _, _, res => (be, .ok (ctx, res))
  | k + 1, be, ctx, save, fuse, res =>
    match nbPrepare n be.cache ctx with
    | .error e => (be, .error e)
    | .ok ctx =>
      match flNbGates K n (gates.drop (be.cacheIdx + 1).toNat) ⟨ctx, save, be.cache, be.cacheIdx, fuse⟩ with
      | (s, .error e) => (⟨s.cache, be.cacheIdx⟩, .error e)
      | (s, .ok _) =>
        let be : NbBackend :=
          if be.cacheIdx ≠ s.idx then ⟨if s.save then some s.ctx.qubits else s.cache, s.idx⟩
          else ⟨s.cache, be.cacheIdx⟩
        let res := if s.ctx.cregs = [] then res else res.add (cregsKey s.ctx.cregs)
        flNbShots n gates k be s.ctx s.save s.fuse res

/-- `NumbaBackend.run` (lines 387-439) with `ignore_global=False`: as `nbRunArgs`. -/
def flNbRunArgs (n : ℕ) (gates : List Gate) (be : NbBackend) (shots : Option ℤ) (returns : Option String)
    (enableCache : Bool) (rnd : ℕ → ℝ) (interrupt : Option ℕ) : NbBackend × Except PyErr (NpVal × (ℕ → ℝ)) :=
  match nbParse shots returns with
  | .error e => (be, .error e)
  | .ok (shots, returns) =>
    let be := if enableCache then be.clearIfInvalid n else ⟨none, -1⟩
    let ctx : NbCtx := ⟨List.replicate (2 ^ n) 0, [], rnd⟩
    match flNbShots K n gates shots.toNat be ctx enableCache interrupt [] with
    | (be, .error e) => (be, .error e)
    | (be, .ok (ctx, counter)) => (be, .ok (npReturn returns ctx.qubits ctx.cregs counter, ctx.rnd))

/-! ### Source order

What the kernels compute if every operation of the source is rounded, in the order of the source. -/

variable (F : FloatOps)

/-- `qubits[i1] *= z` (lines 103, 147, 312). -/
def flInsDiag (z : ℂ) (_i0 i1 : ℕ) : List Ins := [.loadT i1, .store i1 fun t _ => F.mul t z]
/-- `_ygate` (lines 122-125). -/
def flInsY (i0 i1 : ℕ) : List Ins :=
  [.loadT i0, .loadU i1, .store i0 fun _ u => F.mul u (-Complex.I), .store i1 fun t _ => F.mul t Complex.I]
/-- `_hgate` (lines 131-139); the literal 0.7071067811865475 is the double nearest to `1 / np.sqrt(2)`. -/
def flInsH (i0 i1 : ℕ) : List Ins :=
  [.loadT i0, .loadU i1, .store i0 fun t u => F.mul (F.add t u) F.sqrt2Inv,
    .store i1 fun t u => F.mul (F.sub t u) F.sqrt2Inv]
/-- `_rzgate`, `_crzgate` (lines 157-162, 295-298). -/
def flInsRZ (z0 z1 : ℂ) (i0 i1 : ℕ) : List Ins :=
  [.loadT i0, .store i0 fun t _ => F.mul t z0, .loadT i1, .store i1 fun t _ => F.mul t z1]
/-- `qubits[i0] = a * t + b * u; qubits[i1] = c * t + d * u` (lines 189-193, 209-213, 256-262). -/
def flInsRot (a b c d : ℂ) (i0 i1 : ℕ) : List Ins :=
  [.loadT i0, .loadU i1, .store i0 fun t u => F.add (F.mul a t) (F.mul b u),
    .store i1 fun t u => F.add (F.mul c t) (F.mul d u)]
/-- `qubits[i0] = cos * t - sin * u; qubits[i1] = sin * t + cos * u` (lines 174-178, 276-282). -/
def flInsRY (cos sin : ℂ) (i0 i1 : ℕ) : List Ins :=
  [.loadT i0, .loadU i1, .store i0 fun t u => F.sub (F.mul cos t) (F.mul sin u),
    .store i1 fun t u => F.add (F.mul sin t) (F.mul cos u)]
/-- `_reduce0` (lines 333-335). -/
def flInsReduce0 (r : ℂ) (i0 i1 : ℕ) : List Ins := [.loadT i0, .store i0 fun t _ => F.mul t r, .store i1 fun _ _ => 0]
/-- `_reduce1` (lines 343-345). -/
def flInsReduce1 (r : ℂ) (i0 i1 : ℕ) : List Ins := [.loadT i1, .store i1 fun t _ => F.mul t r, .store i0 fun _ _ => 0]
/-- `_reset1` (lines 353-355). -/
def flInsReset1 (r : ℂ) (i0 i1 : ℕ) : List Ins := [.loadU i1, .store i0 fun _ u => F.mul u r, .store i1 fun _ _ => 0]

/-- As `nbBody1` (lines 98-213, 444-610), with the arithmetic `F`; angles are rounded to floats first. -/
def flNbBody1 : G1 → Option (ℕ → ℕ → List Ins)
  | .x => some insX
  | .y => some (flInsY F)
  | .z => some (flInsDiag F (-1))
  | .h => some (flInsH F)
  | .t => some (flInsDiag F (flCexp F (F.rmul 0.25 (F.par Real.pi))))
  | .tdg => some (flInsDiag F (flCexpNeg F (F.rmul 0.25 (F.par Real.pi))))
  | .s => some (flInsDiag F Complex.I)
  | .sdg => some (flInsDiag F (-Complex.I))
  | .rx θ =>
    let ang := F.rmul (F.par θ) 0.5
    let cos : ℂ := F.cos ang
    let nisin : ℂ := F.mul (F.sin ang : ℂ) (-Complex.I)
    some (flInsRot F cos nisin nisin cos)
  | .ry θ =>
    let ang := F.rmul (F.par θ) 0.5
    some (flInsRY F (F.cos ang) (F.sin ang))
  | .rz θ =>
    let ang := F.rmul (F.par θ) 0.5
    some (flInsRZ F (flCexpNeg F ang) (flCexp F ang))
  | .u1 lam =>
    let ang := F.rmul (F.par lam) 0.5
    some (flInsRZ F (flCexpNeg F ang) (flCexp F ang))
  | .phase θ => some (flInsDiag F (flCexp F (F.par θ)))
  | .u3 θ φ lam =>
    let θ' := F.rmul (F.par θ) 0.5
    let cos : ℂ := F.cos θ'
    let sin : ℂ := F.sin θ'
    let add := F.rmul (F.radd (F.par φ) (F.par lam)) 0.5
    let sub := F.rmul (F.rsub (F.par φ) (F.par lam)) 0.5
    some (flInsRot F (F.mul (flCexpNeg F add) cos) (F.mul (-(flCexpNeg F sub)) sin) (F.mul (flCexp F sub) sin)
      (F.mul (flCexp F add) cos))
  | .i => none
  | .u2 _ _ => none

/-- As `nbBody2` (lines 216-315, 504-580), with the arithmetic `F`. -/
def flNbBody2 : G2 → Option (ℕ → ℕ → List Ins)
  | .cx => some insX
  | .cz => some (flInsDiag F (-1))
  | .crx θ => flNbBody1 F (.rx θ)
  | .cry θ => flNbBody1 F (.ry θ)
  | .crz θ => flNbBody1 F (.rz θ)
  | .cphase θ => flNbBody1 F (.phase θ)
  | _ => none

/-- As `nbBody3` (lines 582-592), with the arithmetic `F`. -/
def flNbBody3 : G3 → Option (ℕ → ℕ → List Ins)
  | .ccx => some insX
  | .ccz => some (flInsDiag F (-1))
  | .cswap => none

/-- `_p0calc` (lines 317-325) with the arithmetic `F`, summing in the order of the loop. -/
def flNbP0 (n target : ℕ) (q : Arr) : ℝ :=
  let lowerMask : U64 := ((1 : U64) <<< target) - 1
  ((List.range ((1 : U64) <<< ((BitVec.ofNat 64 n : U64) - 1).toNat).toNat).map fun i =>
    let val := q.getD (nbShifted lowerMask (BitVec.ofNat 64 i)).toNat 0
    F.radd (F.rmul val.re val.re) (F.rmul val.im val.im)).foldl F.radd 0

/-- The kernels (lines 98-355) computed in source order with the arithmetic `F`. -/
def NbFloat.source : NbFloat where
  store k j _ t u := match k with
    | .one k => storeOf? (flNbBody1 F k) j t u
    | .two k => storeOf? (flNbBody2 F k) j t u
    | .three k => storeOf? (flNbBody3 F k) j t u
    | .reduce0 p0 => storeOf (flInsReduce0 F (F.div 1 (F.sqrt p0))) j t u
    | .reduce1 p0 => storeOf (flInsReduce1 F (F.div 1 (F.sqrt (F.rsub 1 p0)))) j t u
    | .reset1 p0 => storeOf (flInsReset1 F (F.div 1 (F.sqrt (F.rsub 1 p0)))) j t u
  p0 n t q := flNbP0 F n t q

end

end Blueqat
