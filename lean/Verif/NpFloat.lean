import Verif.Backend
import Verif.NpRun

/-!
# The numpy simulator in rounded arithmetic (blueqat/backends/numpy_backend.py)

`Verif.Numpy` computes with real and complex numbers. Here every arithmetic operation of the gate methods is the
operation of a parameter `F : FloatOps`, so that what the code does in floating point can be compared with the exact
result. All line numbers are of blueqat/backends/numpy_backend.py unless another file is named.
Simplifications: floating-point numbers are real numbers (no NaN, no infinities, no signed zero); changing a sign and
copying are exact, as in IEEE arithmetic.
-/

namespace Blueqat

/-- The arithmetic of the machine. `par` rounds a real number to a float: it stands for the rounding of the angle a
gate holds (`math.pi / 4` and `(lambd - phi) / 2` in the fallbacks of blueqat/gate.py:111-565 are rounded once). -/
structure FloatOps where
  /-- complex `+`, `-`, `*` of numpy and Python (lines 159, 182, 183, 398) -/
  add : ℂ → ℂ → ℂ
  sub : ℂ → ℂ → ℂ
  mul : ℂ → ℂ → ℂ
  /-- a complex number divided by a float (line 425) -/
  div : ℂ → ℝ → ℂ
  /-- float `+`, `-` and `*` (lines 195, 397, 399, 429) -/
  radd : ℝ → ℝ → ℝ
  rsub : ℝ → ℝ → ℝ
  rmul : ℝ → ℝ → ℝ
  /-- `np.cos`, `math.cos` (lines 196, 232) -/
  cos : ℝ → ℝ
  /-- `np.sin`, `math.sin` (lines 197, 232) -/
  sin : ℝ → ℝ
  /-- `1 / np.sqrt(2)` (lines 184, 254) -/
  sqrt2Inv : ℝ
  /-- `np.sqrt` (line 425) -/
  sqrt : ℝ → ℝ
  /-- `np.linalg.norm(v) ** 2` (line 421) -/
  normPow2 : Arr → ℝ
  par : ℝ → ℝ

noncomputable section

/-- Exact arithmetic: the operations `Verif.Numpy` uses for lines 136-450. -/
def FloatOps.exact : FloatOps where
  add := (· + ·)
  sub := (· - ·)
  mul := (· * ·)
  div z x := z / x
  radd := (· + ·)
  rsub := (· - ·)
  rmul := (· * ·)
  cos := Real.cos
  sin := Real.sin
  sqrt2Inv := 1 / √2
  sqrt := Real.sqrt
  normPow2 := Blueqat.normPow2
  par := id

/-- `x.dot(x)` inside `np.linalg.norm` (line 421), with a rounding after every multiplication and addition. -/
def flDot (fl : ℝ → ℝ) (l : List ℝ) : ℝ := l.foldl (fun a x => fl (a + fl (x * x))) 0

/-- Arithmetic with a rounding `fl` after every operation on floats, in the way numpy and CPython compute the operations
of lines 136-450. Complex products are computed from four products of floats; division by a float multiplies by
the reciprocal (Smith's method); `np.linalg.norm` is the square root of two dot products. `cos` and `sin` are those of
the C library. numpy and CPython are not part of /repo: this is an assumption about them, used only to show that the
hypotheses on `FloatOps` can be met by floating-point arithmetic. -/
def FloatOps.rounded (fl cos sin : ℝ → ℝ) : FloatOps where
  add a b := ⟨fl (a.re + b.re), fl (a.im + b.im)⟩
  sub a b := ⟨fl (a.re - b.re), fl (a.im - b.im)⟩
  mul a b := ⟨fl (fl (a.re * b.re) - fl (a.im * b.im)), fl (fl (a.re * b.im) + fl (a.im * b.re))⟩
  div z x := ⟨fl (z.re * fl (1 / x)), fl (z.im * fl (1 / x))⟩
  radd x y := fl (x + y)
  rsub x y := fl (x - y)
  rmul x y := fl (x * y)
  cos := cos
  sin := sin
  sqrt2Inv := fl (1 / fl √2)
  sqrt x := fl √x
  normPow2 v :=
    let r := fl √(fl (flDot fl (v.map Complex.re) + flDot fl (v.map Complex.im)))
    fl (r * r)
  par := fl

variable (F : FloatOps)

/-- `q[mask] *= z` (line 171). -/
def flMulAt (q : Arr) (m : List Bool) (z : ℂ) : Arr := List.zipWith (fun x b => if b then F.mul x z else x) q m
/-- `u + v` (line 182). -/
def flAddA := broadcast2 F.add
/-- `u - v` (line 183). -/
def flSubA := broadcast2 F.sub
/-- `z * v` (line 159). -/
def flSmulA (z : ℂ) (v : Arr) : Arr := v.map (F.mul z ·)
/-- `v * z`, `v *= z` (lines 184, 407). -/
def flMulS (v : Arr) (z : ℂ) : Arr := v.map (F.mul · z)
/-- `v /= x` for a float `x` (line 425). -/
def flDivS (v : Arr) (x : ℝ) : Arr := v.map (F.div · x)

/-- Loop body of `gate_y` (lines 157-161). -/
def flBodyY (n : Nat) (target : Int) (s : Bufs) : Except PyErr Bufs := do
  let (qubits, newq) := s
  let b ← shl1 target
  let t0 := maskEq n b
  let t1 := maskNe n b
  let newq ← asg newq t0 (flSmulA F (-Complex.I) (sel qubits t1))
  let newq ← asg newq t1 (flSmulA F Complex.I (sel qubits t0))
  pure (newq, qubits)

/-- Loop body of `gate_h` (lines 180-185). -/
def flBodyH (n : Nat) (target : Int) (s : Bufs) : Except PyErr Bufs := do
  let (qubits, newq) := s
  let b ← shl1 target
  let t0 := maskEq n b
  let t1 := maskNe n b
  let v ← flAddA F (sel qubits t0) (sel qubits t1)
  let newq ← asg newq t0 v
  let w ← flSubA F (sel qubits t0) (sel qubits t1)
  let newq ← asg newq t1 w
  let newq := flMulS F newq (F.sqrt2Inv : ℂ)
  pure (newq, qubits)

/-- Loop body of `gate_rx` and `gate_ry` (lines 199-203, 218-222). -/
def flBodyRot (a00 a01 a10 a11 : ℂ) (n : Nat) (target : Int) (s : Bufs) : Except PyErr Bufs := do
  let (qubits, newq) := s
  let b ← shl1 target
  let t0 := maskEq n b
  let t1 := maskNe n b
  let v ← flAddA F (flSmulA F a00 (sel qubits t0)) (flSmulA F a01 (sel qubits t1))
  let newq ← asg newq t0 v
  let w ← flAddA F (flSmulA F a10 (sel qubits t0)) (flSmulA F a11 (sel qubits t1))
  let newq ← asg newq t1 w
  pure (newq, qubits)

/-- Loop body of `gate_u3` (lines 404-411). -/
def flBodyU3 (a00 a01 a10 a11 : ℂ) (n : Nat) (target : Int) (s : Bufs) : Except PyErr Bufs := do
  let (qubits, _) := s
  let newq := qubits
  let b ← shl1 target
  let t0 := maskEq n b
  let t1 := maskNe n b
  let newq ← asg newq t0 (flMulS F (sel qubits t0) a00)
  let v ← flSubA F (sel newq t0) (flMulS F (sel qubits t1) a01)
  let newq ← asg newq t0 v
  let newq ← asg newq t1 (flMulS F (sel qubits t0) a10)
  let w ← flAddA F (sel newq t1) (flMulS F (sel qubits t1) a11)
  let newq ← asg newq t1 w
  pure (newq, qubits)

/-- Loop body of `gate_z`, `gate_phase`, `gate_t`, `gate_s` (lines 171, 246, 257, 265). -/
def flBodyPhase (a : ℂ) (n : Nat) (target : Int) (qubits : Arr) : Except PyErr Arr := do
  let b ← shl1 target
  pure (flMulAt F qubits (maskNe n b) a)

/-- Loop body of `gate_rz` and `gate_u1` (lines 235-236, 385-386). -/
def flBodyRZ (a0 a1 : ℂ) (n : Nat) (target : Int) (qubits : Arr) : Except PyErr Arr := do
  let b ← shl1 target
  let qubits := flMulAt F qubits (maskEq n b) a0
  pure (flMulAt F qubits (maskNe n b) a1)

/-- Loop body of `gate_cz` and `gate_cphase` (lines 273, 355-356). -/
def flBodyCPhase (a : ℂ) (n : Nat) (control target : Int) (qubits : Arr) : Except PyErr Arr := do
  let bc ← shl1 control
  let bt ← shl1 target
  pure (flMulAt F qubits (maskAnd (maskNe n bc) (maskNe n bt)) a)

/-- Loop body of `gate_crz` (lines 342-345). -/
def flBodyCRZ (a0 a1 : ℂ) (n : Nat) (control target : Int) (qubits : Arr) : Except PyErr Arr := do
  let bc ← shl1 control
  let bt ← shl1 target
  let c1t0 := maskAnd (maskNe n bc) (maskEq n bt)
  let c1t1 := maskAnd (maskNe n bc) (maskNe n bt)
  let qubits := flMulAt F qubits c1t0 a0
  pure (flMulAt F qubits c1t1 a1)

/-- Loop body of `gate_crx` and `gate_cry` (lines 302-308, 323-329). -/
def flBodyCRot (a00 a01 a10 a11 : ℂ) (n : Nat) (control target : Int) (s : Bufs) : Except PyErr Bufs := do
  let (qubits, _) := s
  let newq := qubits
  let bc ← shl1 control
  let c1 := maskNe n bc
  let bt ← shl1 target
  let c1t0 := maskAnd (maskEq n bt) c1
  let c1t1 := maskAnd (maskNe n bt) c1
  let v ← flAddA F (flSmulA F a00 (sel qubits c1t0)) (flSmulA F a01 (sel qubits c1t1))
  let newq ← asg newq c1t0 v
  let w ← flAddA F (flSmulA F a10 (sel qubits c1t0)) (flSmulA F a11 (sel qubits c1t1))
  let newq ← asg newq c1t1 w
  pure (newq, qubits)

/-- `complex(math.cos(x), math.sin(x))` (e.g. line 244). -/
def flCexp (x : ℝ) : ℂ := ⟨F.cos x, F.sin x⟩
/-- `complex(math.cos(x), -math.sin(x))` (e.g. line 232). -/
def flCexpNeg (x : ℝ) : ℂ := ⟨F.cos x, -F.sin x⟩

/-- lines 151-164 -/
def flGateY := swapLoop1 (flBodyY F)
/-- lines 166-172 -/
def flGateZ := inPlaceLoop1 (flBodyPhase F (-1))
/-- lines 174-188 -/
def flGateH := swapLoop1 (flBodyH F)
/-- lines 190-206 -/
def flGateRX (θ : ℝ) :=
  let halftheta := F.rmul θ 0.5
  let a00 : ℂ := F.cos halftheta
  let a01 : ℂ := F.mul (-Complex.I) (F.sin halftheta)
  swapLoop1 (flBodyRot F a00 a01 a01 a00)
/-- lines 208-225 -/
def flGateRY (θ : ℝ) :=
  let halftheta := F.rmul θ 0.5
  let a00 : ℂ := F.cos halftheta
  let a10 : ℂ := F.sin halftheta
  let a01 : ℂ := -a10
  swapLoop1 (flBodyRot F a00 a01 a10 a00)
/-- lines 227-237 -/
def flGateRZ (θ : ℝ) :=
  let halftheta := F.rmul θ 0.5
  inPlaceLoop1 (flBodyRZ F (flCexpNeg F halftheta) (flCexp F halftheta))
/-- lines 239-247 -/
def flGatePhase (θ : ℝ) := inPlaceLoop1 (flBodyPhase F (flCexp F θ))
/-- lines 249-258 -/
def flGateT := inPlaceLoop1 (flBodyPhase F ⟨F.sqrt2Inv, F.sqrt2Inv⟩)
/-- lines 260-266 -/
def flGateS := inPlaceLoop1 (flBodyPhase F Complex.I)
/-- lines 268-274 -/
def flGateCZ := inPlaceLoop2 (flBodyCPhase F (-1))
/-- lines 293-311 -/
def flGateCRX (θ : ℝ) :=
  let halftheta := F.rmul θ 0.5
  let a00 : ℂ := F.cos halftheta
  let a01 : ℂ := F.mul (-Complex.I) (F.sin halftheta)
  swapLoop2 (flBodyCRot F a00 a01 a01 a00)
/-- lines 313-332 -/
def flGateCRY (θ : ℝ) :=
  let halftheta := F.rmul θ 0.5
  let a00 : ℂ := F.cos halftheta
  let a10 : ℂ := F.sin halftheta
  let a01 : ℂ := -a10
  swapLoop2 (flBodyCRot F a00 a01 a10 a00)
/-- lines 334-346 -/
def flGateCRZ (θ : ℝ) :=
  let halftheta := F.rmul θ 0.5
  inPlaceLoop2 (flBodyCRZ F (flCexpNeg F halftheta) (flCexp F halftheta))
/-- lines 348-357 -/
def flGateCPhase (θ : ℝ) := inPlaceLoop2 (flBodyCPhase F (flCexp F θ))

/-- lines 359-368 -/
def flGateCCZ (n : Nat) (T : Targets) (ctx : NpCtx) : Except PyErr NpCtx := do
  let (c1, c2, t) ← unpack3 T
  let b1 ← shl1Item c1
  let indices := maskNe n b1
  let b2 ← shl1Item c2
  let indices := maskAnd indices (maskNe n b2)
  let b3 ← shl1Item t
  let indices := maskAnd indices (maskNe n b3)
  pure { ctx with qubits := flMulAt F ctx.qubits indices (-1) }

/-- lines 370-375 -/
def flGateCCX (n : Nat) (T : Targets) (ctx : NpCtx) : Except PyErr NpCtx := do
  let (_, _, t) ← unpack3 T
  let ctx ← flGateH F n t.toTargets ctx
  let ctx ← flGateCCZ F n T ctx
  flGateH F n t.toTargets ctx

/-- lines 377-387 -/
def flGateU1 (lam : ℝ) :=
  let halflambda := F.rmul lam 0.5
  inPlaceLoop1 (flBodyRZ F (flCexpNeg F halflambda) (flCexp F halflambda))

/-- lines 389-414 -/
def flGateU3 (θ φ lam : ℝ) :=
  let globalphase := flCexp F (F.rmul (F.rsub (-φ) lam) 0.5)
  let a00 := F.mul (F.cos (F.rmul θ 0.5) : ℂ) globalphase
  let a11 := F.mul a00 (flCexp F (F.radd φ lam))
  let a01 := F.mul (F.sin (F.rmul θ 0.5) : ℂ) globalphase
  let a10 := a01
  let a01 := F.mul a01 (flCexp F lam)
  let a10 := F.mul a10 (flCexp F φ)
  swapLoop1 (flBodyU3 F a00 a01 a10 a11)

/-- Loop body of `gate_measure` (lines 421-430). -/
def flBodyMeasure (n : Nat) (target : Int) (ctx : NpCtx) : Except PyErr NpCtx := do
  let b ← shl1 target
  let p_zero := F.normPow2 (sel ctx.qubits (maskEq n b))
  let rand := ctx.rnd 0
  let rnd' : Nat → ℝ := fun k => ctx.rnd (k + 1)
  if rand < p_zero then
    let q := setAt ctx.qubits (maskNe n b) 0
    let q := flDivS F q (F.sqrt p_zero)
    let cregs ← setCreg ctx.cregs target 0
    pure { ctx with qubits := q, cregs := cregs, rnd := rnd' }
  else
    let q := setAt ctx.qubits (maskEq n b) 0
    let q := flDivS F q (F.sqrt (F.rsub 1 p_zero))
    let cregs ← setCreg ctx.cregs target 1
    pure { ctx with qubits := q, cregs := cregs, rnd := rnd' }

/-- lines 416-432 -/
def flGateMeasure (n : Nat) (T : Targets) (ctx : NpCtx) : Except PyErr NpCtx :=
  match forGen (slicing T n) (flBodyMeasure F n) ctx with
  | .error e => .error e
  | .ok ctx => .ok { ctx with saveCache := false }

/-- Loop body of `gate_reset` (lines 439-448). -/
def flBodyReset (n : Nat) (target : Int) (ctx : NpCtx) : Except PyErr NpCtx := do
  let b ← shl1 target
  let p_zero := F.normPow2 (sel ctx.qubits (maskEq n b))
  let rand := ctx.rnd 0
  let rnd' : Nat → ℝ := fun k => ctx.rnd (k + 1)
  let t1 := maskNe n b
  if rand < p_zero then
    let q := setAt ctx.qubits t1 0
    let q := flDivS F q (F.sqrt p_zero)
    pure { ctx with qubits := q, rnd := rnd' }
  else
    let q ← asg ctx.qubits (maskEq n b) (sel ctx.qubits t1)
    let q := setAt q t1 0
    let q := flDivS F q (F.sqrt (F.rsub 1 p_zero))
    pure { ctx with qubits := q, rnd := rnd' }

/-- lines 434-450 -/
def flGateReset (n : Nat) (T : Targets) (ctx : NpCtx) : Except PyErr NpCtx :=
  match forGen (slicing T n) (flBodyReset F n) ctx with
  | .error e => .error e
  | .ok ctx => .ok { ctx with saveCache := false }

/-- `self._get_action(gate)` (blueqat/backends/backendbase.py:86-90): the methods `gate_*` the class has
(lines 136-450), called with the float angles; `none` when there is none. `gate_x` and `gate_cx` (lines 136-149,
276-291) only copy. -/
def flAction (n : Nat) : Gate → Option (NpCtx → Except PyErr NpCtx)
  | .g1 .x T => some (npGateX n T)
  | .g1 .y T => some (flGateY F n T)
  | .g1 .z T => some (flGateZ F n T)
  | .g1 .h T => some (flGateH F n T)
  | .g1 (.rx θ) T => some (flGateRX F (F.par θ) n T)
  | .g1 (.ry θ) T => some (flGateRY F (F.par θ) n T)
  | .g1 (.rz θ) T => some (flGateRZ F (F.par θ) n T)
  | .g1 (.phase θ) T => some (flGatePhase F (F.par θ) n T)
  | .g1 .t T => some (flGateT F n T)
  | .g1 .s T => some (flGateS F n T)
  | .g1 (.u1 lam) T => some (flGateU1 F (F.par lam) n T)
  | .g1 (.u3 θ φ lam) T => some (flGateU3 F (F.par θ) (F.par φ) (F.par lam) n T)
  | .g1 _ _ => none
  | .g2 .cz T => some (flGateCZ F n T)
  | .g2 .cx T => some (npGateCX n T)
  | .g2 (.crx θ) T => some (flGateCRX F (F.par θ) n T)
  | .g2 (.cry θ) T => some (flGateCRY F (F.par θ) n T)
  | .g2 (.crz θ) T => some (flGateCRZ F (F.par θ) n T)
  | .g2 (.cphase θ) T => some (flGateCPhase F (F.par θ) n T)
  | .g2 _ _ => none
  | .g3 .ccz T => some (flGateCCZ F n T)
  | .g3 .ccx T => some (flGateCCX F n T)
  | .g3 .cswap _ => none
  | .measure T => some (flGateMeasure F n T)
  | .reset T => some (flGateReset F n T)

/-- The inner loop over gates of one shot (lines 110-117, 121-125): as `npGates` of `Verif.Numpy`, in rounded
arithmetic. -/
def flGates (n : Nat) : List Gate → NpBackend → NpCtx → NpBackend × Except PyErr NpCtx
  | [], be, ctx => (be, .ok ctx)
  | g :: gs, be, ctx =>
    match runGate (flAction F n) n recursionLimit g ctx with
    | .error e => (be, .error e)
    | .ok ctx' =>
      if ctx'.saveCache then flGates n gs ⟨some ctx'.qubits, be.cacheIdx + 1⟩ ctx'
      else flGates n gs be ctx'

/-- The loop over shots (lines 119-127): as `npShots`. -/
def flShots (n : Nat) (gates : List Gate) :
    Nat → NpBackend → NpCtx → Counter → NpBackend × Except PyErr (NpCtx × Counter)
  | 0, be, ctx, res => (be, .ok (ctx, res))
  | k + 1, be, ctx, res =>
    match npPrepare n be.cache ctx with
    | .error e => (be, .error e)
    | .ok ctx =>
      match flGates F n (gates.drop (be.cacheIdx + 1).toNat) be ctx with
      | (be, .error e) => (be, .error e)
      | (be, .ok ctx) =>
        let res := if ctx.cregs = [] then res else res.add (cregsKey ctx.cregs)
        flShots n gates k be ctx res

/-- `NumPyBackend.run` after argument parsing, without `ignore_global` (lines 107-127, 131): as `npRun`. -/
def flRun (n : Nat) (gates : List Gate) (shots : Nat) (be : NpBackend) (rnd : Nat → ℝ) :
    NpBackend × Except PyErr (NpCtx × Counter) :=
  flShots F n gates shots (be.clearIfInvalid n) (npNewCtx n rnd) []

/-- `NumPyBackend.run` (lines 87-131) with `ignore_global=False`: as `npRunArgs`. -/
def flRunArgs (n : Nat) (gates : List Gate) (be : NpBackend) (shots : Option Int) (returns : Option String)
    (rnd : Nat → ℝ) : NpBackend × Except PyErr (NpVal × (Nat → ℝ)) :=
  match npParse shots returns with
  | .error e => (be, .error e)
  | .ok (shots, returns) =>
    match flRun F n gates shots.toNat be rnd with
    | (be, .error e) => (be, .error e)
    | (be, .ok (ctx, counter)) => (be, .ok (npReturn returns ctx.qubits ctx.cregs counter, ctx.rnd))

end

end Blueqat
