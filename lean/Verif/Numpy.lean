import Verif.Gate
import Verif.NpArray

/-!
# The numpy simulator (blueqat/backends/numpy_backend.py, blueqat/backends/backendbase.py)

All line numbers are of blueqat/backends/numpy_backend.py unless another file is named.
Exact real/complex arithmetic replaces floating point. `random.random()` reads the next number of a stream
given as input.
-/

namespace Blueqat

/-- `for target in gen: body` (e.g. lines 141-146): the body runs for the values yielded before a possible
exception of the generator. -/
def forGen {σ : Type} (g : Gen Int) (body : Int → σ → Except PyErr σ) (s : σ) : Except PyErr σ :=
  match g.vals.foldlM (fun s t => body t s) s with
  | .error e => .error e
  | .ok s' =>
    match g.err with
    | none => .ok s'
    | some e => .error e

/-- `for control, target in gate.control_target_iter(n_qubits): body` (e.g. line 281). -/
def forPairs {σ : Type} (g : Except PyErr (List (Int × Int))) (body : Int → Int → σ → Except PyErr σ)
    (s : σ) : Except PyErr σ :=
  match g with
  | .error e => .error e
  | .ok ps => ps.foldlM (fun s p => body p.1 p.2 s) s

/-- `_NumPyBackendContext` (lines 29-55) without the immutable `n_qubits` and `indices`, which are parameters
of the functions below; plus the stream of unused random numbers. `shots_result` is in `NpRun`. -/
structure NpCtx where
  qubits : Arr
  buf : Arr
  cregs : List Nat
  saveCache : Bool
  rnd : Nat → ℝ

/-- The two local arrays `qubits`, `newq` of a gate method. -/
abbrev Bufs := Arr × Arr

noncomputable section

/-- Loop body of `gate_x` (lines 142-146). -/
def bodyX (n : Nat) (target : Int) (s : Bufs) : Except PyErr Bufs := do
  let (qubits, newq) := s
  let b ← shl1 target
  let t0 := maskEq n b
  let t1 := maskNe n b
  let newq ← asg newq t0 (sel qubits t1)
  let newq ← asg newq t1 (sel qubits t0)
  pure (newq, qubits)

/-- Loop body of `gate_y` (lines 157-161). -/
def bodyY (n : Nat) (target : Int) (s : Bufs) : Except PyErr Bufs := do
  let (qubits, newq) := s
  let b ← shl1 target
  let t0 := maskEq n b
  let t1 := maskNe n b
  let newq ← asg newq t0 (smulA (-1 * Complex.I) (sel qubits t1))
  let newq ← asg newq t1 (smulA (1 * Complex.I) (sel qubits t0))
  pure (newq, qubits)

/-- Loop body of `gate_h` (lines 180-185). -/
def bodyH (n : Nat) (target : Int) (s : Bufs) : Except PyErr Bufs := do
  let (qubits, newq) := s
  let b ← shl1 target
  let t0 := maskEq n b
  let t1 := maskNe n b
  let v ← addA (sel qubits t0) (sel qubits t1)
  let newq ← asg newq t0 v
  let w ← subA (sel qubits t0) (sel qubits t1)
  let newq ← asg newq t1 w
  let newq := mulS newq ((1 / √2 : ℝ) : ℂ)
  pure (newq, qubits)

/-- Loop body of `gate_rx` and `gate_ry` (lines 199-203, 218-222). -/
def bodyRot (a00 a01 a10 a11 : ℂ) (n : Nat) (target : Int) (s : Bufs) : Except PyErr Bufs := do
  let (qubits, newq) := s
  let b ← shl1 target
  let t0 := maskEq n b
  let t1 := maskNe n b
  let v ← addA (smulA a00 (sel qubits t0)) (smulA a01 (sel qubits t1))
  let newq ← asg newq t0 v
  let w ← addA (smulA a10 (sel qubits t0)) (smulA a11 (sel qubits t1))
  let newq ← asg newq t1 w
  pure (newq, qubits)

/-- Loop body of `gate_u3` (lines 404-411). -/
def bodyU3 (a00 a01 a10 a11 : ℂ) (n : Nat) (target : Int) (s : Bufs) : Except PyErr Bufs := do
  let (qubits, _) := s
  let newq := qubits
  let b ← shl1 target
  let t0 := maskEq n b
  let t1 := maskNe n b
  let newq ← asg newq t0 (mulS (sel qubits t0) a00)
  let v ← subA (sel newq t0) (mulS (sel qubits t1) a01)
  let newq ← asg newq t0 v
  let newq ← asg newq t1 (mulS (sel qubits t0) a10)
  let w ← addA (sel newq t1) (mulS (sel qubits t1) a11)
  let newq ← asg newq t1 w
  pure (newq, qubits)

/-- Loop body of `gate_z`, `gate_phase`, `gate_t`, `gate_s` (lines 171, 246, 257, 265). -/
def bodyPhase (a : ℂ) (n : Nat) (target : Int) (qubits : Arr) : Except PyErr Arr := do
  let b ← shl1 target
  pure (mulAt qubits (maskNe n b) a)

/-- Loop body of `gate_rz` and `gate_u1` (lines 235-236, 385-386). -/
def bodyRZ (a0 a1 : ℂ) (n : Nat) (target : Int) (qubits : Arr) : Except PyErr Arr := do
  let b ← shl1 target
  let qubits := mulAt qubits (maskEq n b) a0
  pure (mulAt qubits (maskNe n b) a1)

/-- Loop body of `gate_cz` and `gate_cphase` (lines 273, 355-356). -/
def bodyCPhase (a : ℂ) (n : Nat) (control target : Int) (qubits : Arr) : Except PyErr Arr := do
  let bc ← shl1 control
  let bt ← shl1 target
  pure (mulAt qubits (maskAnd (maskNe n bc) (maskNe n bt)) a)

/-- Loop body of `gate_crz` (lines 342-345). -/
def bodyCRZ (a0 a1 : ℂ) (n : Nat) (control target : Int) (qubits : Arr) : Except PyErr Arr := do
  let bc ← shl1 control
  let bt ← shl1 target
  let c1t0 := maskAnd (maskNe n bc) (maskEq n bt)
  let c1t1 := maskAnd (maskNe n bc) (maskNe n bt)
  let qubits := mulAt qubits c1t0 a0
  pure (mulAt qubits c1t1 a1)

/-- Loop body of `gate_cx` (lines 282-288). -/
def bodyCX (n : Nat) (control target : Int) (s : Bufs) : Except PyErr Bufs := do
  let (qubits, _) := s
  let newq := qubits
  let bc ← shl1 control
  let c1 := maskNe n bc
  let bt ← shl1 target
  let t0 := maskEq n bt
  let t1 := maskNe n bt
  let newq ← asg newq (maskAnd c1 t0) (sel qubits (maskAnd c1 t1))
  let newq ← asg newq (maskAnd c1 t1) (sel qubits (maskAnd c1 t0))
  pure (newq, qubits)

/-- Loop body of `gate_crx` and `gate_cry` (lines 302-308, 323-329). -/
def bodyCRot (a00 a01 a10 a11 : ℂ) (n : Nat) (control target : Int) (s : Bufs) : Except PyErr Bufs := do
  let (qubits, _) := s
  let newq := qubits
  let bc ← shl1 control
  let c1 := maskNe n bc
  let bt ← shl1 target
  let c1t0 := maskAnd (maskEq n bt) c1
  let c1t1 := maskAnd (maskNe n bt) c1
  let v ← addA (smulA a00 (sel qubits c1t0)) (smulA a01 (sel qubits c1t1))
  let newq ← asg newq c1t0 v
  let w ← addA (smulA a10 (sel qubits c1t0)) (smulA a11 (sel qubits c1t1))
  let newq ← asg newq c1t1 w
  pure (newq, qubits)

/-- A method whose loop swaps the buffers and stores them back (e.g. lines 137-149). -/
def swapLoop1 (body : Nat → Int → Bufs → Except PyErr Bufs) (n : Nat) (T : Targets) (ctx : NpCtx) :
    Except PyErr NpCtx :=
  match forGen (slicing T n) (body n) (ctx.qubits, ctx.buf) with
  | .error e => .error e
  | .ok (q, b) => .ok { ctx with qubits := q, buf := b }

/-- A method whose loop changes `ctx.qubits` in place (e.g. lines 167-172). -/
def inPlaceLoop1 (body : Nat → Int → Arr → Except PyErr Arr) (n : Nat) (T : Targets) (ctx : NpCtx) :
    Except PyErr NpCtx :=
  match forGen (slicing T n) (body n) ctx.qubits with
  | .error e => .error e
  | .ok q => .ok { ctx with qubits := q }

/-- Two-qubit version of `swapLoop1` (e.g. lines 277-291). -/
def swapLoop2 (body : Nat → Int → Int → Bufs → Except PyErr Bufs) (n : Nat) (T : Targets) (ctx : NpCtx) :
    Except PyErr NpCtx :=
  match forPairs (qubitPairs T n) (body n) (ctx.qubits, ctx.buf) with
  | .error e => .error e
  | .ok (q, b) => .ok { ctx with qubits := q, buf := b }

/-- Two-qubit version of `inPlaceLoop1` (e.g. lines 269-274). -/
def inPlaceLoop2 (body : Nat → Int → Int → Arr → Except PyErr Arr) (n : Nat) (T : Targets) (ctx : NpCtx) :
    Except PyErr NpCtx :=
  match forPairs (qubitPairs T n) (body n) ctx.qubits with
  | .error e => .error e
  | .ok q => .ok { ctx with qubits := q }

/-- `complex(math.cos(x), math.sin(x))` (e.g. line 244). -/
def cexp (x : ℝ) : ℂ := ⟨Real.cos x, Real.sin x⟩
/-- `complex(math.cos(x), -math.sin(x))` (e.g. line 232). -/
def cexpNeg (x : ℝ) : ℂ := ⟨Real.cos x, -Real.sin x⟩

/-- lines 136-149 -/
def npGateX := swapLoop1 bodyX
/-- lines 151-164 -/
def npGateY := swapLoop1 bodyY
/-- lines 166-172 -/
def npGateZ := inPlaceLoop1 (bodyPhase (-1))
/-- lines 174-188 -/
def npGateH := swapLoop1 bodyH
/-- lines 190-206 -/
def npGateRX (θ : ℝ) :=
  let halftheta := θ * 0.5
  let a00 : ℂ := Real.cos halftheta
  let a01 : ℂ := -1 * Complex.I * Real.sin halftheta
  swapLoop1 (bodyRot a00 a01 a01 a00)
/-- lines 208-225 -/
def npGateRY (θ : ℝ) :=
  let halftheta := θ * 0.5
  let a00 : ℂ := Real.cos halftheta
  let a10 : ℂ := Real.sin halftheta
  let a01 : ℂ := -a10
  swapLoop1 (bodyRot a00 a01 a10 a00)
/-- lines 227-237 -/
def npGateRZ (θ : ℝ) :=
  let halftheta := θ * 0.5
  inPlaceLoop1 (bodyRZ (cexpNeg halftheta) (cexp halftheta))
/-- lines 239-247 -/
def npGatePhase (θ : ℝ) := inPlaceLoop1 (bodyPhase (cexp θ))
/-- lines 249-258 -/
def npGateT :=
  let sqrt2_inv : ℝ := 1 / √2
  inPlaceLoop1 (bodyPhase ⟨sqrt2_inv, sqrt2_inv⟩)
/-- lines 260-266 -/
def npGateS := inPlaceLoop1 (bodyPhase Complex.I)
/-- lines 268-274 -/
def npGateCZ := inPlaceLoop2 (bodyCPhase (-1))
/-- lines 276-291 -/
def npGateCX := swapLoop2 bodyCX
/-- lines 293-311 -/
def npGateCRX (θ : ℝ) :=
  let halftheta := θ * 0.5
  let a00 : ℂ := Real.cos halftheta
  let a01 : ℂ := -1 * Complex.I * Real.sin halftheta
  swapLoop2 (bodyCRot a00 a01 a01 a00)
/-- lines 313-332 -/
def npGateCRY (θ : ℝ) :=
  let halftheta := θ * 0.5
  let a00 : ℂ := Real.cos halftheta
  let a10 : ℂ := Real.sin halftheta
  let a01 : ℂ := -a10
  swapLoop2 (bodyCRot a00 a01 a10 a00)
/-- lines 334-346 -/
def npGateCRZ (θ : ℝ) :=
  let halftheta := θ * 0.5
  inPlaceLoop2 (bodyCRZ (cexpNeg halftheta) (cexp halftheta))
/-- lines 348-357 -/
def npGateCPhase (θ : ℝ) := inPlaceLoop2 (bodyCPhase (cexp θ))

/-- `1 << c` where `c` is whatever the subscript holds; a slice or tuple is a TypeError (line 364). -/
def shl1Item : Item → Except PyErr Nat
  | .atom (.int i) => shl1 i
  | _ => .error .typeError

/-- lines 359-368 -/
def npGateCCZ (n : Nat) (T : Targets) (ctx : NpCtx) : Except PyErr NpCtx := do
  let (c1, c2, t) ← unpack3 T
  let b1 ← shl1Item c1
  let indices := maskNe n b1
  let b2 ← shl1Item c2
  let indices := maskAnd indices (maskNe n b2)
  let b3 ← shl1Item t
  let indices := maskAnd indices (maskNe n b3)
  pure { ctx with qubits := mulAt ctx.qubits indices (-1) }

/-- lines 370-375 -/
def npGateCCX (n : Nat) (T : Targets) (ctx : NpCtx) : Except PyErr NpCtx := do
  let (_, _, t) ← unpack3 T
  let ctx ← npGateH n t.toTargets ctx
  let ctx ← npGateCCZ n T ctx
  npGateH n t.toTargets ctx

/-- lines 377-387 -/
def npGateU1 (lam : ℝ) :=
  let halflambda := lam * 0.5
  inPlaceLoop1 (bodyRZ (cexpNeg halflambda) (cexp halflambda))

/-- lines 389-414 -/
def npGateU3 (θ φ lam : ℝ) :=
  let globalphase := cexp ((-φ - lam) * 0.5)
  let a00 := (Real.cos (θ * 0.5) : ℂ) * globalphase
  let a11 := a00 * cexp (φ + lam)
  let a01 := (Real.sin (θ * 0.5) : ℂ) * globalphase
  let a10 := a01
  let a01 := a01 * cexp lam
  let a10 := a10 * cexp φ
  swapLoop1 (bodyU3 a00 a01 a10 a11)

/-- `ctx.cregs[target] = v` (lines 426, 430): a negative index counts from the end; IndexError when out of
range. -/
def setCreg (cregs : List Nat) (target : Int) (v : Nat) : Except PyErr (List Nat) :=
  let i := if target < 0 then target + cregs.length else target
  if 0 ≤ i ∧ i < cregs.length then .ok (cregs.set i.toNat v) else .error .indexError

/-- Loop body of `gate_measure` (lines 421-430). -/
def bodyMeasure (n : Nat) (target : Int) (ctx : NpCtx) : Except PyErr NpCtx := do
  let b ← shl1 target
  let p_zero := normPow2 (sel ctx.qubits (maskEq n b))
  let rand := ctx.rnd 0
  let rnd' : Nat → ℝ := fun k => ctx.rnd (k + 1)
  if rand < p_zero then
    let q := setAt ctx.qubits (maskNe n b) 0
    let q := divS q (Real.sqrt p_zero : ℝ)
    let cregs ← setCreg ctx.cregs target 0
    pure { ctx with qubits := q, cregs := cregs, rnd := rnd' }
  else
    let q := setAt ctx.qubits (maskEq n b) 0
    let q := divS q (Real.sqrt (1 - p_zero) : ℝ)
    let cregs ← setCreg ctx.cregs target 1
    pure { ctx with qubits := q, cregs := cregs, rnd := rnd' }

/-- lines 416-432 -/
def npGateMeasure (n : Nat) (T : Targets) (ctx : NpCtx) : Except PyErr NpCtx :=
  match forGen (slicing T n) (bodyMeasure n) ctx with
  | .error e => .error e
  | .ok ctx => .ok { ctx with saveCache := false }

/-- Loop body of `gate_reset` (lines 439-448). -/
def bodyReset (n : Nat) (target : Int) (ctx : NpCtx) : Except PyErr NpCtx := do
  let b ← shl1 target
  let p_zero := normPow2 (sel ctx.qubits (maskEq n b))
  let rand := ctx.rnd 0
  let rnd' : Nat → ℝ := fun k => ctx.rnd (k + 1)
  let t1 := maskNe n b
  if rand < p_zero then
    let q := setAt ctx.qubits t1 0
    let q := divS q (Real.sqrt p_zero : ℝ)
    pure { ctx with qubits := q, rnd := rnd' }
  else
    let q ← asg ctx.qubits (maskEq n b) (sel ctx.qubits t1)
    let q := setAt q t1 0
    let q := divS q (Real.sqrt (1 - p_zero) : ℝ)
    pure { ctx with qubits := q, rnd := rnd' }

/-- lines 434-450 -/
def npGateReset (n : Nat) (T : Targets) (ctx : NpCtx) : Except PyErr NpCtx :=
  match forGen (slicing T n) (bodyReset n) ctx with
  | .error e => .error e
  | .ok ctx => .ok { ctx with saveCache := false }

/-- `self._get_action(gate)` (blueqat/backends/backendbase.py:86-90): the methods `gate_*` the class has
(lines 136-450); `none` when there is none. -/
def npAction (n : Nat) : Gate → Option (NpCtx → Except PyErr NpCtx)
  | .g1 .x T => some (npGateX n T)
  | .g1 .y T => some (npGateY n T)
  | .g1 .z T => some (npGateZ n T)
  | .g1 .h T => some (npGateH n T)
  | .g1 (.rx θ) T => some (npGateRX θ n T)
  | .g1 (.ry θ) T => some (npGateRY θ n T)
  | .g1 (.rz θ) T => some (npGateRZ θ n T)
  | .g1 (.phase θ) T => some (npGatePhase θ n T)
  | .g1 .t T => some (npGateT n T)
  | .g1 .s T => some (npGateS n T)
  | .g1 (.u1 lam) T => some (npGateU1 lam n T)
  | .g1 (.u3 θ φ lam) T => some (npGateU3 θ φ lam n T)
  | .g1 _ _ => none
  | .g2 .cz T => some (npGateCZ n T)
  | .g2 .cx T => some (npGateCX n T)
  | .g2 (.crx θ) T => some (npGateCRX θ n T)
  | .g2 (.cry θ) T => some (npGateCRY θ n T)
  | .g2 (.crz θ) T => some (npGateCRZ θ n T)
  | .g2 (.cphase θ) T => some (npGateCPhase θ n T)
  | .g2 _ _ => none
  | .g3 .ccz T => some (npGateCCZ n T)
  | .g3 .ccx T => some (npGateCCX n T)
  | .g3 .cswap _ => none
  | .measure T => some (npGateMeasure n T)
  | .reset T => some (npGateReset n T)

/-- `run_single_gate(gate)` (lines 110-117) and `Backend._run_gates` for one gate
(blueqat/backends/backendbase.py:45-53): run the action, or the fallback gates one after the other.
The first argument is the number of nested calls left before Python's RecursionError. -/
def runGate {σ : Type} (act : Gate → Option (σ → Except PyErr σ)) (n : Nat) :
    Nat → Gate → σ → Except PyErr σ
  | 0, _, _ => .error .recursionError
  | fuel + 1, g, s =>
    match act g with
    | some a => a s
    | none =>
      match g.fallback n with
      | .error e => .error e
      | .ok gs => gs.foldlM (fun s g' => runGate act n fuel g' s) s

/-- Nested calls available (CPython's default recursion limit is 1000; the caller's own frames are not
counted). -/
def recursionLimit : Nat := 1000

/-- `run_single_gate(gate)` of the numpy backend (lines 110-117). -/
def npRunGate (n : Nat) (g : Gate) (ctx : NpCtx) : Except PyErr NpCtx :=
  runGate (npAction n) n recursionLimit g ctx

/-- The fields of a `NumPyBackend` instance (lines 68-70). -/
structure NpBackend where
  cache : Option Arr
  cacheIdx : Int

/-- `NumPyBackend()` (lines 68-70). -/
def NpBackend.new : NpBackend := ⟨none, -1⟩

/-- `__clear_cache_if_invalid` (lines 76-85). The dtype is always complex128. -/
def NpBackend.clearIfInvalid (be : NpBackend) (n : Nat) : NpBackend :=
  match be.cache with
  | none => ⟨none, -1⟩
  | some c => if c.length ≠ 2 ^ n then ⟨none, -1⟩ else be

/-- `ctx.prepare(cache)` (lines 41-48). `np.copyto` of an array of another length is a ValueError. -/
def npPrepare (n : Nat) (cache : Option Arr) (ctx : NpCtx) : Except PyErr NpCtx :=
  match cache with
  | some c =>
    if c.length = ctx.qubits.length then
      .ok { ctx with qubits := c, cregs := List.replicate n 0 }
    else .error .valueError
  | none =>
    .ok { ctx with qubits := (List.replicate ctx.qubits.length (0 : ℂ)).set 0 1, cregs := List.replicate n 0 }

/-- `_NumPyBackendContext(n_qubits)` (lines 32-39). -/
def npNewCtx (n : Nat) (rnd : Nat → ℝ) : NpCtx :=
  ⟨List.replicate (2 ^ n) 0, List.replicate (2 ^ n) 0, [], true, rnd⟩

/-- The inner loop over gates of one shot (lines 121-125). The backend's cache fields are written after each
gate while `save_cache` holds, so they are part of the result even when a gate raises. -/
def npGates (n : Nat) : List Gate → NpBackend → NpCtx → NpBackend × Except PyErr NpCtx
  | [], be, ctx => (be, .ok ctx)
  | g :: gs, be, ctx =>
    match npRunGate n g ctx with
    | .error e => (be, .error e)
    | .ok ctx' =>
      if ctx'.saveCache then npGates n gs ⟨some ctx'.qubits, be.cacheIdx + 1⟩ ctx'
      else npGates n gs be ctx'

/-- A `Counter` as an insertion-ordered association list (line 38). -/
abbrev Counter := List (String × Nat)

/-- `self.shots_result[key] = self.shots_result.get(key, 0) + 1` (line 55). -/
def Counter.add (c : Counter) (key : String) : Counter :=
  match c with
  | [] => [(key, 1)]
  | (k, v) :: rest => if k = key then (k, v + 1) :: rest else (k, v) :: Counter.add rest key

/-- `to_str(cregs)` (lines 52-53). -/
def cregsKey (cregs : List Nat) : String := String.join (cregs.map toString)

/-- The loop over shots (lines 119-127). `gates[self.cache_idx + 1:]` is taken anew for each shot. -/
def npShots (n : Nat) (gates : List Gate) :
    Nat → NpBackend → NpCtx → Counter → NpBackend × Except PyErr (NpCtx × Counter)
  | 0, be, ctx, res => (be, .ok (ctx, res))
  | k + 1, be, ctx, res =>
    match npPrepare n be.cache ctx with
    | .error e => (be, .error e)
    | .ok ctx =>
      match npGates n (gates.drop (be.cacheIdx + 1).toNat) be ctx with
      | (be, .error e) => (be, .error e)
      | (be, .ok ctx) =>
        let res := if ctx.cregs = [] then res else res.add (cregsKey ctx.cregs)
        npShots n gates k be ctx res

/-- `NumPyBackend.run` after argument parsing, without `ignore_global` (lines 107-127, 131): the new backend
fields and the final context and counter. -/
def npRun (n : Nat) (gates : List Gate) (shots : Nat) (be : NpBackend) (rnd : Nat → ℝ) :
    NpBackend × Except PyErr (NpCtx × Counter) :=
  npShots n gates shots (be.clearIfInvalid n) (npNewCtx n rnd) []

end

end Blueqat
