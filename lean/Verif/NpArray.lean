import Verif.Py
import Mathlib.Analysis.SpecialFunctions.Trigonometric.Basic
import Mathlib.Data.Nat.Bitwise

/-!
# The numpy array operations the simulators use

These model numpy (not code in /repo) as it is used at blueqat/backends/numpy_backend.py:136-450: arrays are
lists, `a[mask]` selects, `a[mask] = v` assigns with numpy's length rule, arithmetic follows numpy's
broadcasting rule for one-dimensional arrays. Simplifications: complex128 is `ℂ`; `np.uint32` indices are
unbounded (the register would need 2^32 amplitudes to overflow them).
-/

namespace Blueqat

/-- One-dimensional complex array (numpy_backend.py:34-35). -/
abbrev Arr := List ℂ

/-- `1 << target`: ValueError for a negative count (numpy_backend.py:142). -/
def shl1 (t : Int) : Except PyErr Nat :=
  if t < 0 then .error .valueError else .ok (2 ^ t.toNat)

/-- `(i & b) != 0` on the index array (numpy_backend.py:143). -/
def maskNe (n b : Nat) : List Bool := (List.range (2 ^ n)).map fun i => (i &&& b) != 0

/-- `(i & b) == 0` on the index array (numpy_backend.py:142). -/
def maskEq (n b : Nat) : List Bool := (List.range (2 ^ n)).map fun i => (i &&& b) == 0

/-- `m1 & m2` on boolean arrays of the same length (numpy_backend.py:273). -/
def maskAnd (a b : List Bool) : List Bool := List.zipWith and a b

/-- `q[mask]` (numpy_backend.py:144). -/
def sel : Arr → List Bool → Arr
  | x :: q, true :: m => x :: sel q m
  | _ :: q, false :: m => sel q m
  | _, _ => []

/-- Write the values into the selected positions, in order. -/
def fill : Arr → List Bool → Arr → Arr
  | _ :: q, true :: m, v :: vs => v :: fill q m vs
  | x :: q, false :: m, vs => x :: fill q m vs
  | q, _, _ => q

/-- `q[mask] = v` (numpy_backend.py:144): the number of values must be the number of selected positions, a
single value is broadcast, anything else is a ValueError. -/
def asg (q : Arr) (m : List Bool) (v : Arr) : Except PyErr Arr :=
  let k := (m.filter id).length
  if v.length = k then .ok (fill q m v)
  else match v with
    | [z] => .ok (fill q m (List.replicate k z))
    | _ => .error .valueError

/-- `q[mask] *= z` (numpy_backend.py:171). -/
def mulAt (q : Arr) (m : List Bool) (z : ℂ) : Arr := List.zipWith (fun x b => if b then x * z else x) q m

/-- `q[mask] = z` for a scalar (numpy_backend.py:424). -/
def setAt (q : Arr) (m : List Bool) (z : ℂ) : Arr := List.zipWith (fun x b => if b then z else x) q m

/-- Element-wise binary operation with broadcasting of length-one operands (numpy_backend.py:182). -/
def broadcast2 (f : ℂ → ℂ → ℂ) (u v : Arr) : Except PyErr Arr :=
  if u.length = v.length then .ok (List.zipWith f u v)
  else match u, v with
    | [x], v => .ok (v.map (f x))
    | u, [y] => .ok (u.map (f · y))
    | _, _ => .error .valueError

/-- `u + v` (numpy_backend.py:182). -/
def addA := broadcast2 (· + ·)
/-- `u - v` (numpy_backend.py:183). -/
def subA := broadcast2 (· - ·)

/-- `z * v` (numpy_backend.py:159). -/
def smulA (z : ℂ) (v : Arr) : Arr := v.map (z * ·)
/-- `v * z`, `v *= z` (numpy_backend.py:184,407). -/
def mulS (v : Arr) (z : ℂ) : Arr := v.map (· * z)
/-- `v /= z` (numpy_backend.py:425). Division by zero is `0` here and NaN/inf in numpy; the theorems show
the divisor is never zero. -/
noncomputable def divS (v : Arr) (z : ℂ) : Arr := v.map (· / z)

/-- `np.linalg.norm(v) ** 2` (numpy_backend.py:421). -/
noncomputable def normPow2 (v : Arr) : ℝ := Real.sqrt ((v.map (fun z => ‖z‖ ^ 2)).sum) ^ 2

end Blueqat
