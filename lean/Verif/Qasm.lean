import Verif.Backend

/-!
# The OpenQASM output backend (blueqat/backends/qasm_output_backend.py)

`fmt` is the text of a number in an f-string; theorems hold for every such function. Line numbers are of
blueqat/backends/qasm_output_backend.py.
-/

namespace Blueqat

/-- `sep.join(lines)`. -/
def pyJoin (sep : String) : List String → String
  | [] => ""
  | [a] => a
  | a :: b :: rest => a ++ sep ++ pyJoin sep (b :: rest)

/-- `f"{x}"` of an optional integer, as a slice prints its fields. -/
def optStr : Option ℤ → String
  | none => "None"
  | some i => toString i

/-- `f"{x}"` of a subscript atom. Simplification: what a non-index value prints is left as `?`. -/
def atomStr : Atom → String
  | .int i => toString i
  | .slice a b c => "slice(" ++ optStr a ++ ", " ++ optStr b ++ ", " ++ optStr c ++ ")"
  | .bad => "?"

/-- `f"{x}"` of an element of `gate.targets`. -/
def itemStr : Item → String
  | .atom a => atomStr a
  | .tup [a] => "(" ++ atomStr a ++ ",)"
  | .tup as => "(" ++ pyJoin ", " (as.map atomStr) ++ ")"

noncomputable section

variable (fmt : ℝ → String)

/-- The text before the qubit of the one-qubit gates (lines 42-97). -/
def qaHead1 : G1 → Option String
  | .x => some "x"
  | .y => some "y"
  | .z => some "z"
  | .h => some "h"
  | .t => some "t"
  | .s => some "s"
  | .rx θ => some ("rx(" ++ fmt θ ++ ")")
  | .ry θ => some ("ry(" ++ fmt θ ++ ")")
  | .rz θ => some ("rz(" ++ fmt θ ++ ")")
  | .i => some "id"
  | .u1 lam => some ("u1(" ++ fmt lam ++ ")")
  | .u2 φ lam => some ("u2(" ++ fmt φ ++ "," ++ fmt lam ++ ")")
  | .u3 θ φ lam => some ("u3(" ++ fmt θ ++ "," ++ fmt φ ++ "," ++ fmt lam ++ ")")
  | .phase θ => some ("u1(" ++ fmt θ ++ ")")
  | _ => none

/-- The text after the qubit: the comment of `gate_phase` (line 96). -/
def qaTail1 : G1 → String
  | .phase _ => " // Global phase is ignored."
  | _ => ""

/-- The text before the qubits of the two-qubit gates (lines 54-63, 99-117). -/
def qaHead2 : G2 → Option String
  | .cz => some "cz"
  | .cx => some "cx"
  | .cy => some "cy"
  | .ch => some "ch"
  | .swap => some "swap"
  | .cu1 lam => some ("cu1(" ++ fmt lam ++ ")")
  | .cu2 φ lam => some ("cu2(" ++ fmt φ ++ "," ++ fmt lam ++ ")")
  | .cu3 θ φ lam => some ("cu3(" ++ fmt θ ++ "," ++ fmt φ ++ "," ++ fmt lam ++ ")")
  | .cphase θ => some ("cu1(" ++ fmt θ ++ ")")
  | _ => none

/-- The name of the three-qubit gates (lines 124-125). -/
def qaHead3 : G3 → Option String
  | .ccx => some "ccx"
  | .cswap => some "cswap"
  | .ccz => none

/-- `for idx in gate.target_iter(n): lines.append(text(idx))` (e.g. lines 43-44). -/
def qaEach (n : ℕ) (T : Targets) (text : ℤ → String) (lines : List String) : Except PyErr (List String) :=
  forGen (slicing T n) (fun idx lines => .ok (lines ++ [text idx])) lines

/-- `for c, t in gate.control_target_iter(n): lines.append(text(c, t))` (e.g. lines 55-56). -/
def qaEachPair (n : ℕ) (T : Targets) (text : ℤ → ℤ → String) (lines : List String) : Except PyErr (List String) :=
  forPairs (qubitPairs T n) (fun c t lines => .ok (lines ++ [text c t])) lines

/-- `_three_qubit_gate_noargs` (lines 119-122): the targets as written. -/
def qaThree (head : String) (T : Targets) (lines : List String) : Except PyErr (List String) :=
  match unpack3 T with
  | .error e => .error e
  | .ok (c0, c1, t) =>
    .ok (lines ++ [head ++ " q[" ++ itemStr c0 ++ "],q[" ++ itemStr c1 ++ "],q[" ++ itemStr t ++ "];"])

/-- The `gate_*` methods (lines 42-132). -/
def qaAction (n : ℕ) : Gate → Option (List String → Except PyErr (List String))
  | .g1 k T => (qaHead1 fmt k).map fun head =>
      qaEach n T fun idx => head ++ " q[" ++ toString idx ++ "];" ++ qaTail1 k
  | .g2 k T => (qaHead2 fmt k).map fun head =>
      qaEachPair n T fun c t => head ++ " q[" ++ toString c ++ "],q[" ++ toString t ++ "];"
  | .g3 k T => (qaHead3 k).map fun head => qaThree head T
  | .measure T => some (qaEach n T fun idx => "measure q[" ++ toString idx ++ "] -> c[" ++ toString idx ++ "];")
  | .reset T => some (qaEach n T fun idx => "reset q[" ++ toString idx ++ "];")

/-- The lines of the prologue (lines 29-34). -/
def qaPrologue (n : ℕ) : List String :=
  ["OPENQASM 2.0;", "include \"qelib1.inc\";", "qreg q[" ++ toString n ++ "];", "creg c[" ++ toString n ++ "];"]

/-- `Circuit(n, gates).to_qasm(output_prologue=...)` (circuit.py:230-232, lines 23-40, backendbase.py:71-73). The list
of lines lives in the context, which every action mutates. -/
def qaRun (n : ℕ) (gates : List Gate) (prologue : Bool) : Except PyErr String :=
  match runGates (qaAction fmt n) n recursionLimit gates (if prologue then qaPrologue n else []) with
  | .error e => .error e
  | .ok lines => .ok (pyJoin "\n" lines)

end

end Blueqat
