import Verif.Slicing
import Mathlib.Analysis.SpecialFunctions.Trigonometric.Basic

/-!
# Gate classes, their daggers and fallbacks (blueqat/gate.py:11-632)

Simplifications: gate parameters are real numbers (`float` in the code); `kwargs` are dropped, no modelled
code reads them; `lowername` is represented by the constructor.
-/

namespace Blueqat

/-- One-qubit unitary gate classes (blueqat/gate.py:97-294). -/
inductive G1 where
  | i | x | y | z | h | t | tdg | s | sdg
  | rx (θ : ℝ) | ry (θ : ℝ) | rz (θ : ℝ) | phase (θ : ℝ)
  | u1 (lam : ℝ) | u2 (φ lam : ℝ) | u3 (θ φ lam : ℝ)

/-- Two-qubit gate classes (blueqat/gate.py:297-565). -/
inductive G2 where
  | cx | cz | cy | ch
  | crx (θ : ℝ) | cry (θ : ℝ) | crz (θ : ℝ) | cphase (θ : ℝ)
  | rxx (θ : ℝ) | ryy (θ : ℝ) | rzz (θ : ℝ)
  | swap
  | cu1 (lam : ℝ) | cu2 (φ lam : ℝ) | cu3 (θ φ lam : ℝ)

/-- Three-qubit gate classes (blueqat/gate.py:568-616). -/
inductive G3 where
  | ccx | ccz | cswap

/-- A gate object: its class, parameters and `targets` (blueqat/gate.py:22-27). -/
inductive Gate where
  | g1 (k : G1) (T : Targets)
  | g2 (k : G2) (T : Targets)
  | g3 (k : G3) (T : Targets)
  | measure (T : Targets)
  | reset (T : Targets)

/-- `gate.targets` (blueqat/gate.py:27). -/
def Gate.targets : Gate → Targets
  | .g1 _ T => T
  | .g2 _ T => T
  | .g3 _ T => T
  | .measure T => T
  | .reset T => T

/-- The class and parameters of `dagger()` of a one-qubit gate
(blueqat/gate.py:104,112,120,128,136,148,160,172,192,204,215,226,237,258,275,293). -/
noncomputable def G1.dagger : G1 → G1
  | .i => .i
  | .x => .x
  | .y => .y
  | .z => .z
  | .h => .h
  | .t => .tdg
  | .tdg => .t
  | .s => .sdg
  | .sdg => .s
  | .rx θ => .rx (-θ)
  | .ry θ => .ry (-θ)
  | .rz θ => .rz (-θ)
  | .phase θ => .phase (-θ)
  | .u1 lam => .u1 (-lam)
  | .u2 φ lam => .u3 (-Real.pi / 2) (-lam) (-φ)
  | .u3 θ φ lam => .u3 (-θ) (-lam) (-φ)

/-- The class and parameters of `dagger()` of a two-qubit gate
(blueqat/gate.py:301,309,317,332,352,372,392,412,430,452,474,490,513,536,554). -/
noncomputable def G2.dagger : G2 → G2
  | .cx => .cx
  | .cz => .cz
  | .cy => .cy
  | .ch => .ch
  | .crx θ => .crx (-θ)
  | .cry θ => .cry (-θ)
  | .crz θ => .crz (-θ)
  | .cphase θ => .cphase (-θ)
  | .rxx θ => .rxx (-θ)
  | .ryy θ => .ryy (-θ)
  | .rzz θ => .rzz (-θ)
  | .swap => .swap
  | .cu1 lam => .cu1 (-lam)
  | .cu2 φ lam => .cu3 (-Real.pi / 2) (-lam) (-φ)
  | .cu3 θ φ lam => .cu3 (-θ) (-lam) (-φ)

/-- The class of `dagger()` of a three-qubit gate (blueqat/gate.py:572,600,608). -/
def G3.dagger : G3 → G3
  | .ccx => .ccx
  | .ccz => .ccz
  | .cswap => .cswap

/-- `gate.dagger()` (blueqat/gate.py:33-35 and the overrides; 623-624, 631-632 raise ValueError).
The targets are passed on unchanged. -/
noncomputable def Gate.dagger : Gate → Except PyErr Gate
  | .g1 k T => .ok (.g1 k.dagger T)
  | .g2 k T => .ok (.g2 k.dagger T)
  | .g3 k T => .ok (.g3 k.dagger T)
  | .measure _ => .error .valueError
  | .reset _ => .error .valueError

/-- A one-qubit gate object on one integer target, as fallbacks build it (e.g. blueqat/gate.py:197). -/
def on1 (k : G1) (t : Int) : Gate := .g1 k (.ofInt t)

/-- A two-qubit gate object on an integer pair, as fallbacks build it (e.g. blueqat/gate.py:324). -/
def on2 (k : G2) (c t : Int) : Gate := .g2 k (.ofPair c t)

/-- The lambda passed to `_make_fallback_for_target_iter`; `none`: the class has no `fallback`, so
`Gate.fallback` raises NotImplementedError (blueqat/gate.py:29-31); `IGate.fallback` is handled in
`Gate.fallback` (blueqat/gate.py:101-102 does not look at the targets).
blueqat/gate.py:195-197,207-208,218-219,229-230,240-241,261-263,278-280. -/
noncomputable def G1.fallbackOn : G1 → Option (Int → List Gate)
  | .phase θ => some fun t => [on1 (.rz θ) t]
  | .t => some fun t => [on1 (.phase (Real.pi / 4)) t]
  | .tdg => some fun t => [on1 (.phase (-Real.pi / 4)) t]
  | .s => some fun t => [on1 (.phase (Real.pi / 2)) t]
  | .sdg => some fun t => [on1 (.phase (-Real.pi / 2)) t]
  | .u1 lam => some fun t => [on1 (.u3 0 0 lam) t]
  | .u2 φ lam => some fun t => [on1 (.u3 (Real.pi / 2) φ lam) t]
  | _ => none

/-- The lambda passed to `_make_fallback_for_control_target_iter`; `none`: no `fallback` method.
blueqat/gate.py:320-325,335-341,355-361,375-381,395-401,415-419,433-441,455-463,477-483,493-496,
516-524,539-541,557-565. -/
noncomputable def G2.fallbackOn : G2 → Option (Int → Int → List Gate)
  | .cx => none
  | .cz => none
  | .cy => some fun c t => [on1 .sdg t, on2 .cx c t, on1 .s t]
  | .ch => some fun c t => [on1 (.ry (Real.pi / 4)) t, on2 .cx c t, on1 (.ry (-Real.pi / 4)) t]
  | .crx θ => some fun c t =>
      [on1 (.rx (θ / 2)) t, on2 .cz c t, on1 (.rx (-θ / 2)) t, on2 .cz c t]
  | .cry θ => some fun c t =>
      [on1 (.ry (θ / 2)) t, on2 .cx c t, on1 (.ry (-θ / 2)) t, on2 .cx c t]
  | .crz θ => some fun c t =>
      [on1 (.rz (θ / 2)) t, on2 .cx c t, on1 (.rz (-θ / 2)) t, on2 .cx c t]
  | .cphase θ => some fun c t => [on2 (.crz θ) c t, on1 (.phase (θ / 2)) c]
  | .rxx θ => some fun c t => [on1 .h c, on1 .h t, on2 (.rzz θ) c t, on1 .h c, on1 .h t]
  | .ryy θ => some fun c t =>
      [on1 (.rx (-Real.pi * 0.5)) c, on1 (.rx (-Real.pi * 0.5)) t, on2 (.rzz θ) c t,
        on1 (.rx (Real.pi * 0.5)) c, on1 (.rx (Real.pi * 0.5)) t]
  | .rzz θ => some fun c t => [on2 .cx c t, on1 (.rz θ) t, on2 .cx c t]
  | .swap => some fun c t => [on2 .cx c t, on2 .cx t c, on2 .cx c t]
  | .cu1 lam => some fun c t =>
      [on1 (.u1 (lam / 2)) c, on2 .cx c t, on1 (.u1 (-lam / 2)) t, on2 .cx c t, on1 (.u1 (lam / 2)) t]
  | .cu2 φ lam => some fun c t => [on2 (.cu3 (Real.pi / 2) φ lam) c t]
  | .cu3 θ φ lam => some fun c t =>
      [on1 (.u1 ((lam - φ) / 2)) t, on2 .cx c t, on1 (.u3 (-θ / 2) 0 (-(φ + lam) / 2)) t,
        on2 .cx c t, on1 (.u3 (θ / 2) φ 0) t]

/-- `a, b, c = self.targets` (blueqat/gate.py:576,613, blueqat/backends/numpy_backend.py:360,371):
ValueError for a tuple of another length, TypeError for a value that is not iterable. -/
def unpack3 : Targets → Except PyErr (Item × Item × Item)
  | .tup [a, b, c] => .ok (a, b, c)
  | .tup _ => .error .valueError
  | .one _ => .error .typeError

/-- One-qubit gate object whose targets are a subscript element (blueqat/gate.py:578). -/
def onItem (k : G1) (t : Item) : Gate := .g1 k t.toTargets

/-- Two-qubit gate object whose targets are a pair of subscript elements (blueqat/gate.py:579). -/
def onItems (k : G2) (c t : Item) : Gate := .g2 k (.tup [c, t])

/-- `ToffoliGate.fallback` after unpacking (blueqat/gate.py:577-593). -/
def toffoliFallback (c1 c2 t : Item) : List Gate :=
  [onItem .h t, onItems .cx c2 t, onItem .tdg t, onItems .cx c1 t, onItem .t t, onItems .cx c2 t,
    onItem .tdg t, onItems .cx c1 t, onItem .t c2, onItem .t t, onItem .h t, onItems .cx c1 c2,
    onItem .t c1, onItem .tdg c2, onItems .cx c1 c2]

/-- `gate.fallback(n_qubits)` (blueqat/gate.py:29-31,76-80,90-94 and the overrides). -/
noncomputable def Gate.fallback (g : Gate) (n : Nat) : Except PyErr (List Gate) :=
  match g with
  | .g1 .i _ => .ok []
  | .g1 k T =>
    match k.fallbackOn with
    | none => .error .notImplementedError
    | some f =>
      match (slicing T n).toList with
      | .error e => .error e
      | .ok ts => .ok (ts.flatMap f)
  | .g2 k T =>
    match k.fallbackOn with
    | none => .error .notImplementedError
    | some f =>
      match qubitPairs T n with
      | .error e => .error e
      | .ok ps => .ok (ps.flatMap fun p => f p.1 p.2)
  | .g3 .ccx T =>
    match unpack3 T with
    | .error e => .error e
    | .ok (c1, c2, t) => .ok (toffoliFallback c1 c2 t)
  | .g3 .ccz _ => .error .notImplementedError
  | .g3 .cswap T =>
    match unpack3 T with
    | .error e => .error e
    | .ok (c, t1, t2) => .ok [onItems .cx t2 t1, .g3 .ccx (.tup [c, t1, t2]), onItems .cx t2 t1]
  | .measure _ => .error .notImplementedError
  | .reset _ => .error .notImplementedError

end Blueqat
