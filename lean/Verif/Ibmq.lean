import Verif.Qasm
import Verif.Utils

/-!
# The ibmq backend (blueqat/backends/ibmq_backend.py, blueqat/backends/qasm_parser_backend_generator.py)

Qiskit is a record of functions: what importing it does, reading OpenQASM, drawing, executing, and the counts of a
result. Line numbers without a file are of blueqat/backends/ibmq_backend.py.

Simplifications: `shots` is an integer; other keyword arguments are one value `K` passed on to Qiskit; exceptions of
Qiskit are classes of `PyErr`.
-/

namespace Blueqat

/-- Qiskit as the code uses it. `importExn`: the exception that the import raises, if any. -/
structure Qiskit (Circ Bk Job Res Draw K : Type) where
  importExn : Option PyErr
  fromQasm : String → Except PyErr Circ
  draw : Circ → K → Except PyErr Draw
  aer : Except PyErr Bk
  execute : Circ → Bk → ℤ → K → Except PyErr Job
  result : Job → Except PyErr Res
  counts : Res → Except PyErr (PyDict String ℕ)

/-- What the runner returns. -/
inductive IbmqVal (Circ Job Res Draw : Type) where
  | none
  | exn (e : PyErr)
  | circuit (c : Circ)
  | drawing (d : Draw)
  | job (j : Job)
  | result (r : Res)
  | counts (c : PyDict String ℕ)

section
variable {Circ Bk Job Res Draw K : Type} (qk : Qiskit Circ Bk Job Res Draw K)

/-- Lines 44-49. -/
def ibmqReturns : Option String → Except PyErr String
  | none => .ok "shots"
  | some r =>
    if r ∈ ["shots", "draw", "_exception", "qiskit_circuit", "qiskit_job", "qiskit_result"] then .ok r
    else .error .valueError

/-- Lines 83-87, after the job is made. -/
def ibmqCounts (job : Job) (returns : String) : Except PyErr (IbmqVal Circ Job Res Draw) :=
  match qk.result job with
  | .error e => .error e
  | .ok result =>
    if returns = "qiskit_result" then .ok (.result result)
    else
      match qk.counts result with
      | .error e => .error e
      | .ok c => .ok (.counts (reverseKeys c))

/-- Lines 76-82: default number of shots, default backend, `execute`. -/
def ibmqExecute (c : Circ) (bk : Option Bk) (shots : Option ℤ) (returns : String) (kw : K) :
    Except PyErr (IbmqVal Circ Job Res Draw) :=
  match (match bk with | some b => Except.ok b | none => qk.aer) with
  | .error e => .error e
  | .ok b =>
    match qk.execute c b (shots.getD 1024) kw with
    | .error e => .error e
    | .ok job => if returns = "qiskit_job" then .ok (.job job) else ibmqCounts qk job returns

/-- Lines 71-75: reading the program. -/
def ibmqCircuit (qasm : String) (bk : Option Bk) (shots : Option ℤ) (returns : String) (kw : K) :
    Except PyErr (IbmqVal Circ Job Res Draw) :=
  match qk.fromQasm qasm with
  | .error e => .error e
  | .ok c =>
    if returns = "qiskit_circuit" then .ok (.circuit c)
    else if returns = "draw" then (qk.draw c kw).map .drawing
    else ibmqExecute qk c bk shots returns kw

/-- Lines 59-67, after a failed import. Python deletes the name `e` of `except Exception as e` at the end of the
clause, so that `return e` at line 61 raises UnboundLocalError. -/
def ibmqImportFailed (exn : PyErr) (returns : String) : PyErr :=
  if returns = "_exception" then .unboundLocalError
  else if exn = .importError then .importError
  else .valueError

/-- `_qasm_runner_qiskit` (lines 43-87). -/
def ibmqRunner (qasm : String) (bk : Option Bk) (shots : Option ℤ) (returns : Option String) (kw : K) :
    Except PyErr (IbmqVal Circ Job Res Draw) :=
  match ibmqReturns returns with
  | .error e => .error e
  | .ok r =>
    match qk.importExn with
    | some exn => .error (ibmqImportFailed exn r)
    | none => if r = "_exception" then .ok .none else ibmqCircuit qk qasm bk shots r kw

/-- `QasmParsableBackend.run` (blueqat/backends/qasm_parser_backend_generator.py:31-33): the program text, with its
prologue, goes to the runner with the other arguments unchanged. -/
noncomputable def qasmParsableRun {α : Type} (fmt : ℝ → String) (runner : String → Except PyErr α) (gates : List Gate)
    (n : ℕ) : Except PyErr α :=
  match qaRun fmt n gates true with
  | .error e => .error e
  | .ok qasm => runner qasm

/-- `Circuit(n, gates).run_with_ibmq(...)` (line 89). -/
noncomputable def ibmqRun (fmt : ℝ → String) (n : ℕ) (gates : List Gate) (bk : Option Bk) (shots : Option ℤ)
    (returns : Option String) (kw : K) : Except PyErr (IbmqVal Circ Job Res Draw) :=
  qasmParsableRun fmt (fun qasm => ibmqRunner qk qasm bk shots returns kw) gates n

end

end Blueqat
