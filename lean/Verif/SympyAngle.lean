import Verif.Sympy

/-!
# `_angle_simplify` of the symbolic backend (blueqat/backends/sympy_backend.py)

`Sympy` takes `_angle_simplify` for the identity; here it is a step of its own. Line numbers are of
blueqat/backends/sympy_backend.py.
-/

namespace Blueqat

noncomputable section

/-- `_angle_simplify(ang)` (lines 28-34). `nsimp x` is the pair of values of
`sympy.nsimplify(x).as_numer_denom()`, library behaviour. `isFloat` says which numbers are float objects (a function of
the value: an int and a float of the same value are not told apart). -/
def angleSimplify (isFloat : ℝ → Bool) (nsimp : ℝ → ℝ × ℝ) (ang : ℝ) : ℝ :=
  if isFloat ang then
    let (numer, denom) := nsimp (ang / Real.pi)
    if denom < 1000000000000 then Real.pi * numer / denom else ang
  else ang

/-- The parameters that `_one_qubit_gate_args_theta` and `_one_qubit_gate_ugate` put into the matrices
(lines 95-98, 109-123), `S` is `_angle_simplify`. For `u2` the angle theta is `pi / 2`, for `u1` phi and theta are 0. -/
def G1.simplified (S : ℝ → ℝ) : G1 → G1
  | .rx θ => .rx (S θ)
  | .ry θ => .ry (S θ)
  | .rz θ => .rz (S θ)
  | .phase θ => .phase (S θ)
  | .u1 lam => .u1 (S lam)
  | .u2 φ lam => .u2 (S φ) (S lam)
  | .u3 θ φ lam => .u3 (S θ) (S φ) (S lam)
  | k => k

/-- The `gate_*` methods (lines 91-127, 135-143, 153-158), as `syAction` but with simplified angles. -/
def syActionA (S : ℝ → ℝ) (n : ℕ) : Gate → Option (SMat → Except PyErr SMat)
  | .g1 k T => (sySympyGate (k.simplified S)).map fun G => syGate1 n G T
  | g => syAction n g

/-- `Circuit(n, gates).to_unitary()` (blueqat/circuit.py:234-236, blueqat/backends/backendbase.py:71-73, lines 160-170)
with simplified angles and without `ignore_global`. -/
def syRunA (S : ℝ → ℝ) (n : ℕ) (gates : List Gate) : Except PyErr SMat :=
  runGates (syActionA S n) n recursionLimit gates (SMat.eye (2 ^ n))

end

end Blueqat
