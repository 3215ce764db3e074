import Verif.Sympy
import Verif.Spec.SymValue

/-!
# The symbolic backend with symbolic gate parameters (blueqat/backends/sympy_backend.py, blueqat/gate.py)

Gates whose parameters are sympy expressions. An expression is kept as written; sympy's automatic rewriting, which does
not change values, is not modelled, except that the test `mat[i, i] != 0` (line 168) is a parameter: it says which
expressions sympy has rewritten to 0. Numbers in Python are `SE.num`, also inside `_angle_simplify` (lines 28-34), which
returns everything but floats unchanged. Line numbers are of blueqat/backends/sympy_backend.py if no file is given.
-/

namespace Blueqat

open Spec (SE)

noncomputable section

/-! ## Gates -/

/-- One-qubit gate classes with their parameters (blueqat/gate.py:97-294). -/
inductive SG1 where
  | i | x | y | z | h | t | tdg | s | sdg
  | rx (θ : SE) | ry (θ : SE) | rz (θ : SE) | phase (θ : SE)
  | u1 (lam : SE) | u2 (φ lam : SE) | u3 (θ φ lam : SE)

/-- Two-qubit gate classes with their parameters (blueqat/gate.py:297-565). -/
inductive SG2 where
  | cx | cz | cy | ch
  | crx (θ : SE) | cry (θ : SE) | crz (θ : SE) | cphase (θ : SE)
  | rxx (θ : SE) | ryy (θ : SE) | rzz (θ : SE)
  | swap
  | cu1 (lam : SE) | cu2 (φ lam : SE) | cu3 (θ φ lam : SE)

/-- A gate object (blueqat/gate.py:22-27). -/
inductive SGate where
  | g1 (k : SG1) (T : Targets)
  | g2 (k : SG2) (T : Targets)
  | g3 (k : G3) (T : Targets)
  | measure (T : Targets)
  | reset (T : Targets)

/-- `gate.params` (blueqat/gate.py:22-27 and the constructors). -/
def SG1.params : SG1 → List SE
  | .rx θ | .ry θ | .rz θ | .phase θ => [θ]
  | .u1 lam => [lam]
  | .u2 φ lam => [φ, lam]
  | .u3 θ φ lam => [θ, φ, lam]
  | _ => []

/-- `gate.params` (blueqat/gate.py:22-27 and the constructors). -/
def SG2.params : SG2 → List SE
  | .crx θ | .cry θ | .crz θ | .cphase θ | .rxx θ | .ryy θ | .rzz θ => [θ]
  | .cu1 lam => [lam]
  | .cu2 φ lam => [φ, lam]
  | .cu3 θ φ lam => [θ, φ, lam]
  | _ => []

/-- `gate.params` (blueqat/gate.py:22-27 and the constructors). -/
def SGate.params : SGate → List SE
  | .g1 k _ => k.params
  | .g2 k _ => k.params
  | _ => []

/-- A one-qubit gate object on one integer target (e.g. blueqat/gate.py:197). -/
def sOn1 (k : SG1) (t : Int) : SGate := .g1 k (.ofInt t)

/-- A two-qubit gate object on an integer pair (e.g. blueqat/gate.py:324). -/
def sOn2 (k : SG2) (c t : Int) : SGate := .g2 k (.ofPair c t)

/-- `x / 2` in Python. -/
def sHalf (e : SE) : SE := .div e (.num 2)

/-- The lambda passed to `_make_fallback_for_target_iter`
(blueqat/gate.py:195-197,207-208,218-219,229-230,240-241,261-263,278-280). -/
def SG1.fallbackOn : SG1 → Option (Int → List SGate)
  | .phase θ => some fun t => [sOn1 (.rz θ) t]
  | .t => some fun t => [sOn1 (.phase (.num (Real.pi / 4))) t]
  | .tdg => some fun t => [sOn1 (.phase (.num (-Real.pi / 4))) t]
  | .s => some fun t => [sOn1 (.phase (.num (Real.pi / 2))) t]
  | .sdg => some fun t => [sOn1 (.phase (.num (-Real.pi / 2))) t]
  | .u1 lam => some fun t => [sOn1 (.u3 (.num 0) (.num 0) lam) t]
  | .u2 φ lam => some fun t => [sOn1 (.u3 (.num (Real.pi / 2)) φ lam) t]
  | _ => none

/-- The lambda passed to `_make_fallback_for_control_target_iter` (blueqat/gate.py:320-325,335-341,355-361,375-381,
395-401,415-419,433-441,455-463,477-483,493-496,516-524,539-541,557-565). -/
def SG2.fallbackOn : SG2 → Option (Int → Int → List SGate)
  | .cx => none
  | .cz => none
  | .cy => some fun c t => [sOn1 .sdg t, sOn2 .cx c t, sOn1 .s t]
  | .ch => some fun c t => [sOn1 (.ry (.num (Real.pi / 4))) t, sOn2 .cx c t, sOn1 (.ry (.num (-Real.pi / 4))) t]
  | .crx θ => some fun c t =>
      [sOn1 (.rx (sHalf θ)) t, sOn2 .cz c t, sOn1 (.rx (sHalf (.neg θ))) t, sOn2 .cz c t]
  | .cry θ => some fun c t =>
      [sOn1 (.ry (sHalf θ)) t, sOn2 .cx c t, sOn1 (.ry (sHalf (.neg θ))) t, sOn2 .cx c t]
  | .crz θ => some fun c t =>
      [sOn1 (.rz (sHalf θ)) t, sOn2 .cx c t, sOn1 (.rz (sHalf (.neg θ))) t, sOn2 .cx c t]
  | .cphase θ => some fun c t => [sOn2 (.crz θ) c t, sOn1 (.phase (sHalf θ)) c]
  | .rxx θ => some fun c t => [sOn1 .h c, sOn1 .h t, sOn2 (.rzz θ) c t, sOn1 .h c, sOn1 .h t]
  | .ryy θ => some fun c t =>
      [sOn1 (.rx (.num (-Real.pi * 0.5))) c, sOn1 (.rx (.num (-Real.pi * 0.5))) t, sOn2 (.rzz θ) c t,
        sOn1 (.rx (.num (Real.pi * 0.5))) c, sOn1 (.rx (.num (Real.pi * 0.5))) t]
  | .rzz θ => some fun c t => [sOn2 .cx c t, sOn1 (.rz θ) t, sOn2 .cx c t]
  | .swap => some fun c t => [sOn2 .cx c t, sOn2 .cx t c, sOn2 .cx c t]
  | .cu1 lam => some fun c t =>
      [sOn1 (.u1 (sHalf lam)) c, sOn2 .cx c t, sOn1 (.u1 (sHalf (.neg lam))) t, sOn2 .cx c t, sOn1 (.u1 (sHalf lam)) t]
  | .cu2 φ lam => some fun c t => [sOn2 (.cu3 (.num (Real.pi / 2)) φ lam) c t]
  | .cu3 θ φ lam => some fun c t =>
      [sOn1 (.u1 (sHalf (.sub lam φ))) t, sOn2 .cx c t, sOn1 (.u3 (sHalf (.neg θ)) (.num 0) (sHalf (.neg (.add φ lam)))) t,
        sOn2 .cx c t, sOn1 (.u3 (sHalf θ) φ (.num 0)) t]

/-- One-qubit gate object whose targets are a subscript element (blueqat/gate.py:578). -/
def sOnItem (k : SG1) (t : Item) : SGate := .g1 k t.toTargets

/-- Two-qubit gate object whose targets are a pair of subscript elements (blueqat/gate.py:579). -/
def sOnItems (k : SG2) (c t : Item) : SGate := .g2 k (.tup [c, t])

/-- `ToffoliGate.fallback` after unpacking (blueqat/gate.py:577-593). -/
def sToffoli (c1 c2 t : Item) : List SGate :=
  [sOnItem .h t, sOnItems .cx c2 t, sOnItem .tdg t, sOnItems .cx c1 t, sOnItem .t t, sOnItems .cx c2 t,
    sOnItem .tdg t, sOnItems .cx c1 t, sOnItem .t c2, sOnItem .t t, sOnItem .h t, sOnItems .cx c1 c2,
    sOnItem .t c1, sOnItem .tdg c2, sOnItems .cx c1 c2]

/-- `gate.fallback(n_qubits)` (blueqat/gate.py:29-31,76-80,90-94 and the overrides). -/
def SGate.fallback (g : SGate) (n : ℕ) : Except PyErr (List SGate) :=
  match g with
  | .g1 .i _ => .ok []
  | .g1 k T =>
    match k.fallbackOn with
    | none => .error .notImplementedError
    | some f =>
      match (slicing T n).toList with
      | .error e => .error e
      | .ok ts => .ok (ts.flatMap f)
  | .g2 k T =>
    match k.fallbackOn with
    | none => .error .notImplementedError
    | some f =>
      match qubitPairs T n with
      | .error e => .error e
      | .ok ps => .ok (ps.flatMap fun p => f p.1 p.2)
  | .g3 .ccx T =>
    match unpack3 T with
    | .error e => .error e
    | .ok (c1, c2, t) => .ok (sToffoli c1 c2 t)
  | .g3 .ccz _ => .error .notImplementedError
  | .g3 .cswap T =>
    match unpack3 T with
    | .error e => .error e
    | .ok (c, t1, t2) => .ok [sOnItems .cx t2 t1, .g3 .ccx (.tup [c, t1, t2]), sOnItems .cx t2 t1]
  | .measure _ => .error .notImplementedError
  | .reset _ => .error .notImplementedError

/-- The class and parameters of `dagger()` (blueqat/gate.py:104,112,120,128,136,148,160,172,192,204,215,226,237,258,275,293). -/
def SG1.dagger : SG1 → SG1
  | .i => .i
  | .x => .x
  | .y => .y
  | .z => .z
  | .h => .h
  | .t => .tdg
  | .tdg => .t
  | .s => .sdg
  | .sdg => .s
  | .rx θ => .rx (.neg θ)
  | .ry θ => .ry (.neg θ)
  | .rz θ => .rz (.neg θ)
  | .phase θ => .phase (.neg θ)
  | .u1 lam => .u1 (.neg lam)
  | .u2 φ lam => .u3 (.num (-Real.pi / 2)) (.neg lam) (.neg φ)
  | .u3 θ φ lam => .u3 (.neg θ) (.neg lam) (.neg φ)

/-- The class and parameters of `dagger()` (blueqat/gate.py:301,309,317,332,352,372,392,412,430,452,474,490,513,536,554). -/
def SG2.dagger : SG2 → SG2
  | .cx => .cx
  | .cz => .cz
  | .cy => .cy
  | .ch => .ch
  | .crx θ => .crx (.neg θ)
  | .cry θ => .cry (.neg θ)
  | .crz θ => .crz (.neg θ)
  | .cphase θ => .cphase (.neg θ)
  | .rxx θ => .rxx (.neg θ)
  | .ryy θ => .ryy (.neg θ)
  | .rzz θ => .rzz (.neg θ)
  | .swap => .swap
  | .cu1 lam => .cu1 (.neg lam)
  | .cu2 φ lam => .cu3 (.num (-Real.pi / 2)) (.neg lam) (.neg φ)
  | .cu3 θ φ lam => .cu3 (.neg θ) (.neg lam) (.neg φ)

/-- `gate.dagger()` (blueqat/gate.py:33-35 and the overrides; 623-624, 631-632 raise ValueError). -/
def SGate.dagger : SGate → Except PyErr SGate
  | .g1 k T => .ok (.g1 k.dagger T)
  | .g2 k T => .ok (.g2 k.dagger T)
  | .g3 k T => .ok (.g3 k.dagger T)
  | .measure _ => .error .valueError
  | .reset _ => .error .valueError

/-! ## Matrices of expressions -/

/-- A square sympy `Matrix` of expressions. -/
structure SymMat where
  dim : ℕ
  ent : ℕ → ℕ → SE

/-- `Matrix([[a, b], [c, d]])`. -/
def SymMat.lit (a b c d : SE) : SymMat :=
  ⟨2, fun i j => if i = 0 then (if j = 0 then a else b) else (if j = 0 then c else d)⟩

/-- sympy `eye(d)`. -/
def SymMat.eye (d : ℕ) : SymMat := ⟨d, fun i j => if i = j then .num 1 else .num 0⟩

/-- A sum of expressions. -/
def seSum (l : List SE) : SE := l.foldr .add (.num 0)

/-- `A * B`. -/
def SymMat.mul (A B : SymMat) : SymMat :=
  ⟨A.dim, fun i j => seSum ((List.range A.dim).map fun k => .mul (A.ent i k) (B.ent k j))⟩

/-- `A + B`. -/
def SymMat.add (A B : SymMat) : SymMat := ⟨A.dim, fun i j => .add (A.ent i j) (B.ent i j)⟩

/-- `A * z` for a scalar. -/
def SymMat.scale (A : SymMat) (z : SE) : SymMat := ⟨A.dim, fun i j => .mul (A.ent i j) z⟩

/-- `TensorProduct(A, B)`. -/
def SymMat.tensor (A B : SymMat) : SymMat :=
  ⟨A.dim * B.dim, fun i j => .mul (A.ent (i / B.dim) (j / B.dim)) (B.ent (i % B.dim) (j % B.dim))⟩

/-- `expr.subs([...], simultaneous=True)`: every symbol is replaced once, what was put in is not looked at again.
Library behaviour. -/
def seSubs (σ : String → Option SE) : SE → SE
  | .num c => .num c
  | .pi => .pi
  | .I => .I
  | .sym s => (σ s).getD (.sym s)
  | .add a b => .add (seSubs σ a) (seSubs σ b)
  | .sub a b => .sub (seSubs σ a) (seSubs σ b)
  | .neg a => .neg (seSubs σ a)
  | .mul a b => .mul (seSubs σ a) (seSubs σ b)
  | .div a b => .div (seSubs σ a) (seSubs σ b)
  | .cos a => .cos (seSubs σ a)
  | .sin a => .sin (seSubs σ a)
  | .exp a => .exp (seSubs σ a)
  | .abs a => .abs (seSubs σ a)

/-- `matrix.subs(...)`. -/
def SymMat.subs (σ : String → Option SE) (A : SymMat) : SymMat := ⟨A.dim, fun i j => seSubs σ (A.ent i j)⟩

/-- `theta` (line 51). The user's symbols may have the same name. -/
def seTheta : SE := .sym "theta"

/-- `phi` (line 52). -/
def sePhi : SE := .sym "phi"

/-- `lambd` (line 53). -/
def seLambd : SE := .sym "lambd"

/-- `[(self.theta, theta)]` (line 97). -/
def substTheta (θ : SE) : String → Option SE := fun s => if s = "theta" then some θ else none

/-- `[(self.lambd, lambd), (self.phi, phi), (self.theta, theta)]` (lines 119-122). -/
def substU (θ φ lam : SE) : String → Option SE := fun s =>
  if s = "lambd" then some lam else if s = "phi" then some φ else if s = "theta" then some θ else none

/-- `exp(-I * e / 2)`. -/
def seCisNegHalf (e : SE) : SE := .exp (.div (.mul (.neg .I) e) (.num 2))

/-- `exp(I * e / 2)`. -/
def seCisHalf (e : SE) : SE := .exp (.div (.mul .I e) (.num 2))

/-- `SYMPY_GATE['RX']` (line 61). -/
def tmplRX : SymMat := .lit (.cos (sHalf seTheta)) (.mul (.neg .I) (.sin (sHalf seTheta)))
  (.mul (.neg .I) (.sin (sHalf seTheta))) (.cos (sHalf seTheta))

/-- `SYMPY_GATE['RY']` (line 62). -/
def tmplRY : SymMat := .lit (.cos (sHalf seTheta)) (.neg (.sin (sHalf seTheta))) (.sin (sHalf seTheta)) (.cos (sHalf seTheta))

/-- `SYMPY_GATE['RZ']` (line 63). -/
def tmplRZ : SymMat := .lit (seCisNegHalf seTheta) (.num 0) (.num 0) (seCisHalf seTheta)

/-- `SYMPY_GATE['PHASE']` (line 64). -/
def tmplPhase : SymMat := .lit (.num 1) (.num 0) (.num 0) (.exp (.mul .I seTheta))

/-- `SYMPY_GATE['U1']` (line 65). -/
def tmplU1 : SymMat := .lit (seCisNegHalf seLambd) (.num 0) (.num 0) (seCisHalf seLambd)

/-- `SYMPY_GATE['U2']` (lines 66-68). -/
def tmplU2 : SymMat := .lit
  (.div (seCisNegHalf (.add sePhi seLambd)) (.num √2)) (.div (.neg (seCisNegHalf (.sub sePhi seLambd))) (.num √2))
  (.div (seCisHalf (.sub sePhi seLambd)) (.num √2)) (.div (seCisHalf (.add sePhi seLambd)) (.num √2))

/-- `SYMPY_GATE['U3']` (lines 69-71). -/
def tmplU3 : SymMat := .lit
  (.mul (seCisNegHalf (.add sePhi seLambd)) (.cos (sHalf seTheta)))
  (.mul (.neg (seCisNegHalf (.sub sePhi seLambd))) (.sin (sHalf seTheta)))
  (.mul (seCisHalf (.sub sePhi seLambd)) (.sin (sHalf seTheta)))
  (.mul (seCisHalf (.add sePhi seLambd)) (.cos (sHalf seTheta)))

/-- `SYMPY_GATE['X']` (line 57). -/
def tmplX : SymMat := .lit (.num 0) (.num 1) (.num 1) (.num 0)

/-- `SYMPY_GATE['Y']` (line 58). -/
def tmplY : SymMat := .lit (.num 0) (.neg .I) .I (.num 0)

/-- `SYMPY_GATE['Z']` (line 59). -/
def tmplZ : SymMat := .lit (.num 1) (.num 0) (.num 0) (.num (-1))

/-- `SYMPY_GATE['H']` (line 60). -/
def tmplH : SymMat := .lit (.div (.num 1) (.num √2)) (.div (.num 1) (.num √2)) (.div (.num 1) (.num √2))
  (.div (.num (-1)) (.num √2))

/-- The matrix of a one-qubit gate with a `gate_*` method (lines 91-127). -/
def symGate : SG1 → Option SymMat
  | .x => some tmplX
  | .y => some tmplY
  | .z => some tmplZ
  | .h => some tmplH
  | .rx θ => some (tmplRX.subs (substTheta θ))
  | .ry θ => some (tmplRY.subs (substTheta θ))
  | .rz θ => some (tmplRZ.subs (substTheta θ))
  | .phase θ => some (tmplPhase.subs (substTheta θ))
  | .u1 lam => some (tmplU1.subs (substU (.num 0) (.num 0) lam))
  | .u2 φ lam => some (tmplU2.subs (substU (.div .pi (.num 2)) φ lam))
  | .u3 θ φ lam => some (tmplU3.subs (substU θ φ lam))
  | _ => none

/-! ## Running -/

/-- `_create_matrix_of_one_qubit_gate(n_qubits, targets, matrix_of_gate)` (lines 75-83). -/
def symOneQubit (n : ℕ) (targets : List ℤ) (G : SymMat) : Except PyErr SymMat :=
  let gates := (List.range n).map fun idx => if ((idx : ℕ) : ℤ) ∈ targets then G else SymMat.eye 2
  pyReduce SymMat.tensor gates.reverse

/-- `_create_matrix_of_one_qubit_gate_circuit(gate, ctx, matrix_of_gate)` (lines 85-89). -/
def symGate1 (n : ℕ) (G : SymMat) (T : Targets) (M : SymMat) : Except PyErr SymMat := do
  let targets ← (slicing T n).toList
  let m ← symOneQubit n targets G
  pure (m.mul M)

/-- `_create_matrix_of_two_qubit_gate(n_qubits, gate, control, target)` (lines 129-133). -/
def symTwoQubit (n : ℕ) (G : SymMat) (control target : ℤ) : Except PyErr SymMat := do
  let c0 ← symOneQubit n [control] (.lit (.num 1) (.num 0) (.num 0) (.num 0))
  let c1 ← symOneQubit n [control] (.lit (.num 0) (.num 0) (.num 0) (.num 1))
  let tgt ← symOneQubit n [target] G
  pure (c0.add (tgt.mul c1))

/-- `_two_qubit_gate_noargs` (lines 135-140). -/
def symGate2 (n : ℕ) (G : SymMat) (T : Targets) (M : SymMat) : Except PyErr SymMat :=
  forPairs (qubitPairs T n) (fun control target M => do
    let m ← symTwoQubit n G control target
    pure (m.mul M)) M

/-- The `gate_*` methods (lines 100-107, 125-127, 142-143, 157-158). -/
def symAction (n : ℕ) : SGate → Option (SymMat → Except PyErr SymMat)
  | .g1 k T => (symGate k).map fun G => symGate1 n G T
  | .g2 .cx T => some (symGate2 n tmplX T)
  | .g2 .cz T => some (symGate2 n tmplZ T)
  | .measure _ => some fun M => .ok M
  | .reset _ => some fun M => .ok M
  | _ => none

/-- `Backend._run_gates` for one gate (blueqat/backends/backendbase.py:45-53, 86-90), as in `runGate`. -/
def symRunGate (n : ℕ) : ℕ → SGate → SymMat → Except PyErr SymMat
  | 0, _, _ => .error .recursionError
  | fuel + 1, g, M =>
    match symAction n g with
    | some a => a M
    | none =>
      match g.fallback n with
      | .error e => .error e
      | .ok gs => gs.foldlM (fun M g' => symRunGate n fuel g' M) M

/-- `_postprocess_run` with `ignore_global` set (lines 166-170); `isZero e`: sympy has rewritten `e` to 0. -/
def symIgnoreGlobal (isZero : SE → Bool) (M : SymMat) : SymMat :=
  match (List.range M.dim).find? fun i => !isZero (M.ent i i) with
  | some i => M.scale (.div (.abs (M.ent i i)) (M.ent i i))
  | none => M

/-- `Circuit(n, gates).to_unitary(ignore_global=...)` (blueqat/circuit.py:234-236, blueqat/backends/backendbase.py:71-73,
lines 160-170). -/
def symRun (isZero : SE → Bool) (n : ℕ) (gates : List SGate) (ignoreGlobal : Bool) : Except PyErr SymMat := do
  let M ← gates.foldlM (fun M g => symRunGate n recursionLimit g M) (SymMat.eye (2 ^ n))
  pure (if ignoreGlobal then symIgnoreGlobal isZero M else M)

end

end Blueqat
