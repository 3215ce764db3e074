import Verif.Numpy
import Verif.Utils
import Verif.Circuit

/-!
# `NumPyBackend.run` with its arguments (blueqat/backends/numpy_backend.py:57-134)
-/

namespace Blueqat

/-- The keyword arguments `run` looks at (line 88), and the random numbers of the run. Simplification: unknown
keyword arguments (`**_kwargs`) are ignored by the code and dropped here; `returns` is `None` or a string and
`shots` is `None` or an integer. -/
structure RunArgs where
  shots : Option ℤ
  returns : Option String
  ignoreGlobal : Bool
  rnd : ℕ → ℝ

/-- The keys of `__return_type` (lines 59-64). -/
def npReturnTypes : List String := ["statevector", "shots", "statevector_and_shots", "_inner_ctx"]

/-- `__parse_run_args` (lines 88-103); the warning of lines 101-102 is dropped. `DEFAULT_SHOTS` is line 65. -/
def npParse (shots : Option ℤ) (returns : Option String) : Except PyErr (ℤ × String) :=
  let returns := match returns with
    | some r => r
    | none => match shots with
      | none => "statevector"
      | some _ => "shots"
  if returns ∈ npReturnTypes then
    match shots with
    | some k => .ok (k, returns)
    | none => if returns = "statevector" ∨ returns = "_inner_ctx" then .ok (1, returns) else .ok (1024, returns)
  else .error .valueError

/-- The value returned (lines 59-64). Of the internal context (`_inner_ctx`) the fields that hold results are
kept; the scratch buffer and the cache flag are dropped. -/
inductive NpVal where
  | statevector (q : Arr)
  | shots (c : Counter)
  | both (q : Arr) (c : Counter)
  | inner (q : Arr) (cregs : List ℕ) (c : Counter)

/-- `self.__return_type[returns](ctx)` (line 131). -/
def npReturn (returns : String) (q : Arr) (cregs : List ℕ) (c : Counter) : NpVal :=
  if returns = "statevector" then .statevector q
  else if returns = "shots" then .shots c
  else if returns = "statevector_and_shots" then .both q c
  else .inner q cregs c

noncomputable section

/-- `NumPyBackend.run` (lines 87-131): the backend fields afterwards, and the value returned together with the
unused random numbers. -/
def npRunArgs (n : ℕ) (gates : List Gate) (be : NpBackend) (a : RunArgs) :
    NpBackend × Except PyErr (NpVal × (ℕ → ℝ)) :=
  match npParse a.shots a.returns with
  | .error e => (be, .error e)
  | .ok (shots, returns) =>
    match npRun n gates shots.toNat be a.rnd with
    | (be, .error e) => (be, .error e)
    | (be, .ok (ctx, counter)) =>
      let q := if a.ignoreGlobal then ignoreGlobalPhase ctx.qubits else ctx.qubits
      (be, .ok (npReturn returns q ctx.cregs counter, ctx.rnd))

/-- `make_cache` (lines 133-134): a run without arguments. -/
def npMakeCache (n : ℕ) (gates : List Gate) (be : NpBackend) (rnd : ℕ → ℝ) : NpBackend × Except PyErr Unit :=
  let r := npRunArgs n gates be ⟨none, none, false, rnd⟩
  (r.1, r.2.map (fun _ => ()))

/-- The numpy backend as circuits use it (class `NumPyBackend`, lines 57-134). -/
def npKit : Kit Unit NpBackend RunArgs (NpVal × (ℕ → ℝ)) where
  make _ := NpBackend.new
  cls _ := ()
  run be gates n a := npRunArgs n gates be a
  makeCache be gates n a := npMakeCache n gates be a.rnd

end

end Blueqat
