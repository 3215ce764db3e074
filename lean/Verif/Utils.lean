import Verif.NpArray
import Verif.PyDict

/-!
# `blueqat/utils.py`
-/

namespace Blueqat

/-- `int(b)` for a one-character string (blueqat/utils.py:33). Simplification: decimal digits outside ASCII,
which Python also accepts, are an error here. -/
def intOfChar (c : Char) : Except PyErr ℕ := if c.isDigit then .ok (c.toNat - '0'.toNat) else .error .valueError

/-- `tuple(int(b) for b in bitstr)` (blueqat/utils.py:33). -/
def intsOfStr (s : String) : Except PyErr (List ℕ) := s.toList.mapM intOfChar

/-- The types `to_inttuple` looks at (blueqat/utils.py:32-38). `Counter` and `dict` with string keys. -/
inductive BitArg (V : Type) where
  | str (s : String)
  | counter (d : PyDict String V)
  | dict (d : PyDict String V)
  | other

/-- What `to_inttuple` returns. -/
inductive BitRes (V : Type) where
  | tuple (t : List ℕ)
  | counter (d : PyDict (List ℕ) V)
  | dict (d : PyDict (List ℕ) V)

/-- `{tuple(int(b) for b in k): v for k, v in d.items()}` (blueqat/utils.py:35,37); `acc` is the dict built so
far. -/
def convertKeys {V : Type} : PyDict String V → PyDict (List ℕ) V → Except PyErr (PyDict (List ℕ) V)
  | [], acc => .ok acc
  | (k, v) :: rest, acc =>
    match intsOfStr k with
    | .error e => .error e
    | .ok t => convertKeys rest (acc.set t v)

/-- `to_inttuple` (blueqat/utils.py:18-39). -/
def toInttuple {V : Type} : BitArg V → Except PyErr (BitRes V)
  | .str s => (intsOfStr s).map .tuple
  | .counter d => (convertKeys d []).map .counter
  | .dict d => (convertKeys d []).map .dict
  | .other => .error .valueError

/-- `Counter({bits[::-1]: val for bits, val in counts.items()})` in `_qasm_runner_qiskit`
(blueqat/backends/ibmq_backend.py:86). The rest of that function talks to qiskit and is not modelled. -/
def reverseKeys {V : Type} (counts : PyDict String V) : PyDict String V :=
  counts.foldl (fun d p => d.set (String.ofList p.1.toList.reverse) p.2) []

noncomputable section

/-- `ignore_global_phase` (blueqat/utils.py:41-55): the first `q` with `abs(q) > 0.0000001` decides. -/
def ignoreGlobalPhase (statevec : Arr) : Arr :=
  match statevec.find? (fun q => decide (‖q‖ > 0.0000001)) with
  | none => statevec
  | some q => statevec.map (fun z => z * ((‖q‖ : ℂ) / q))

end

end Blueqat
